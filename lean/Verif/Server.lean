import Verif.TransferModel
import Verif.CryptoProps
import Verif.Negotiate
import Verif.Path
/-
The server: new connections (src/server/connection_builder.rs, src/server/helpers/connection.rs), the connections' timers
(src/server/helpers/read.rs, write.rs) and the loop of the single threaded server (src/server/single_thread.rs).
The multi threaded server (src/server/multi_thread.rs) uses the same functions; it is modelled in Multi.lean.

Time is in milliseconds, supplied by the events. The `alloc` feature is on. Epoll and raw socket identifiers are left out: an event
says which socket delivers a datagram. Panics found in C29 are treated as refusals. The texts of error packets are empty.
-/
namespace Tftp

/-- Client address. -/
abbrev Addr := Nat

/-- A server process: configuration, key exchange and nonces. `handshake pub` is the cipher the server's private key and the
client key `pub` agree on, `session` the cipher of the session keys. -/
structure Srv (S : SigScheme) where
  cfg : SrvCfg S
  maxConn : Nat
  preferSeek : Bool
  handshake : Bytes → Aead
  session : SessionKeys → Aead
  nonce : Nat → Bytes
  nonce_length : ∀ i, (nonce i).length = 24

/-- A connection's side of the transfer: src/server/connection.rs:29-32 `ClientType`. -/
inductive Side
  | reader (s : SendSt)
  | writer (s : RecvSt)

/-- src/server/connection.rs:39-59 `Connection`. -/
structure Conn where
  opts : Opts
  enc : Option Aead
  side : Side
  lastUpdated : Nat
  lastSent : Nat
  mult : Nat

/-- Transfer parameters of a connection (TransferModel.lean). -/
def Srv.transfer {S} (v : Srv S) (c : Conn) : Cfg where
  bs := c.opts.payload
  W := c.opts.window
  ackW := c.opts.window
  cap := c.opts.blockSize
  max := v.cfg.maxFileSize
  sender := .serverSingle
  receiver := .serverSingle
  codec := match c.enc with
    | none => Codec.plain _
    | some A => Codec.level A c.opts.level _ v.nonce v.nonce_length

def Conn.finished (c : Conn) : Bool := match c.side with
  | .reader s => s.finished
  | .writer s => s.finished

/-- `connection.invalid.is_some()`. -/
def Conn.failed (c : Conn) : Bool := match c.side with
  | .reader s => s.failed
  | .writer s => s.failed

/-- `connection.transfer`. -/
def Conn.total (c : Conn) : Nat := match c.side with
  | .reader s => s.total
  | .writer s => s.total

/-! ### New connections -/

/-- src/server/connection_builder.rs:71-113 `from_new_connection`: the handshake cipher, if the datagram opens under the
server's key, and the request. -/
def Srv.openRequest {S} (v : Srv S) (dg : Bytes) : Option Aead × Bytes :=
  match v.cfg.privateKey, parseInitial dg with
  | some _, some (ct, nonce, pub) => match openInitial (v.handshake pub) ct nonce with
    | .ok b => (some (v.handshake pub), b)
    | _ => (none, dg)
  | _, _ => (none, dg)

/-- The world outside the server for a new connection: `create_reader`/`create_writer` (on the normalised name),
`create_bound_socket`, sending the acceptance; the public part of the fresh session key; a nonce index. -/
structure NewIo where
  openRead : Bytes → Option (Option Nat × Bytes)
  openWrite : Bytes → Bool
  socketOk : Bool
  sendOk : Bool
  sessionPub : Bytes
  nonce : Nat

/-- src/server/connection_builder.rs:336-379 `reply_with_error`: nothing with `error_to_authorized_only`; encrypted with the
handshake cipher. -/
def Srv.replyError {S} (v : Srv S) (hs : Option Aead) (o : Opts) (nonce : Nat) (code : ErrorCode) : List Bytes :=
  if v.cfg.errorToAuthorizedOnly then []
  else match hs with
    | none => [(Packet.error code []).toBytes]
    | some A => match sealPacket A (v.nonce nonce) (Packet.error code []).toBytes o.payload with
      | .ok d => [d]
      | _ => []

/-- Which reader: src/server/connection_builder.rs:381-423 `block_reader` with all readers available. -/
def Srv.kind {S} (v : Srv S) (window : Nat) : Kind := if v.preferSeek then .seek else if window = 1 then .single else .multi

/-- src/server/helpers/connection.rs:68-133 `accept_connection`: the acceptance goes out protected as before the session
cipher is installed. `none`: it could not be sent. -/
def Srv.accept {S} (v : Srv S) (c : Conn) (write : Bool) (used : Exts) (keys : Option SessionKeys) (io : NewIo) :
    Option (Conn × List Bytes) :=
  let send (p : Packet) : Option (List Bytes) :=
    if io.sendOk then ((v.transfer c).codec.enc io.nonce p.toBytes).map ([·]) else none
  let sent : Option (List Bytes) :=
    if used.isEmpty then (if write then send (.ack 0) else some []) else send (.optionalAck used)
  sent.map fun out => ({ c with enc := match keys with
    | some k => some (v.session k)
    | none => c.enc }, out)

/-- Why a datagram from a new address does not create a connection. -/
inductive Refusal | notRequest | options | size | name | file | socket | send
deriving DecidableEq

/-- Result of a datagram from a new address: replies sent from the main socket, and the connection with the packets sent from
its own socket, or the reason of the refusal. -/
structure NewRes where
  replies : List Bytes
  result : Except Refusal (Conn × List Bytes)

/-- The chain for a datagram from an address without connection: src/server/single_thread.rs:265-347 (and
src/server/multi_thread.rs:149-213) with `handle_packet` (src/server/helpers/connection.rs:33-66), `build_writer` and
`build_reader` (src/server/connection_builder.rs:137-309) and `validate_request_options` (src/server/validation.rs:21-44). -/
def Srv.newConn {S} (v : Srv S) (t : Nat) (dg : Bytes) (io : NewIo) : NewRes :=
  let hs := (v.openRequest dg).1
  let o0 : Opts := { Opts.default with level := if hs.isSome then .full else .none }
  let go (write : Bool) (r : Request) : NewRes :=
    match srvParse v.cfg io.sessionPub r.exts o0 with
    | .error _ => ⟨v.replyError hs o0 io.nonce .illegalOperation, .error .options⟩
    | .ok (used, o, keys) =>
      if ¬ sizeAllowed v.cfg o then ⟨[(Packet.error .diskFull []).toBytes], .error .size⟩
      else match normalizeName r.fileName with
        | none => ⟨[(Packet.error .accessViolation []).toBytes], .error .name⟩
        | some name =>
          let finish (used : Exts) (o : Opts) (side : Side) : NewRes :=
            if io.socketOk then
              match v.accept ⟨o, hs, side, t, t, 1⟩ write used keys io with
              | some y => ⟨[], .ok y⟩
              | none => ⟨[], .error .send⟩
            else ⟨[], .error .socket⟩
          if write then
            if io.openWrite name then finish used o (.writer ⟨Writer.new, 0, 0, false, false⟩)
            else ⟨v.replyError hs o io.nonce .diskFull, .error .file⟩
          else match io.openRead name with
            | some (size, file) =>
              let (used, o) := srvReadSize size used o
              finish used o (.reader ⟨Reader.new (v.kind o.window) file o.payload o.window, 0, false, false⟩)
            | none => ⟨v.replyError hs o io.nonce .diskFull, .error .file⟩
  match Packet.fromBytes (v.openRequest dg).2 with
  | .ok (.write r) => go true r
  | .ok (.read r) => go false r
  | _ => ⟨[], .error .notRequest⟩

/-! ### A connection's turns -/

/-- Behaviour of file and socket in a sending turn. -/
structure SendIo where
  fail : Bool
  net : SendRes
  nonce : Nat

/-- src/server/helpers/read.rs:31-35: is it time to retransmit? (`mul_f32` on the timeout, which is exact here: whole
milliseconds times a number below 256; simplification: no rounding.) -/
def Conn.retryDue (c : Conn) (t : Nat) : Bool := decide (t - c.lastSent > c.opts.retry * c.mult)

/-- src/server/helpers/read.rs:25-85 `send_data_block` with its timers: the connection, what was sent, and whether a block
was sent. -/
def Srv.sendBlock {S} (v : Srv S) (c : Conn) (t : Nat) (io : SendIo) : Conn × Option Bytes × Bool :=
  match c.side with
  | .writer _ => (c, none, false)
  | .reader s =>
    let retry := c.retryDue t
    let c := if retry then { c with mult := min 255 (c.mult + 2) } else c
    let (s', d) := serverSendTick (v.transfer c) s retry io.fail io.net io.nonce
    let sent := d.isSome && !s'.failed
    ({ c with side := .reader s', lastSent := if sent then t else c.lastSent }, d.map (·.bytes), sent)

/-- Behaviour of file and socket when a datagram is handled. -/
structure RecvIo where
  file : WriteIo
  sendOk : Bool
  nonce : Nat

/-- src/server/helpers/read.rs:87-145 `handle_read` and src/server/helpers/write.rs:23-127 `handle_write` with their timers.
(For a writer `last_updated` is set here also by the block which exceeds the size limit; the connection has failed then and
the time is not used any more.) -/
def Srv.handle {S} (v : Srv S) (c : Conn) (t : Nat) (dg : Bytes) (io : RecvIo) : Conn × Option Bytes :=
  match c.side with
  | .reader s =>
    let s' := serverSendRecv (v.transfer c) s dg
    if s'.total > s.total then
      ({ c with side := .reader s', lastUpdated := t, mult := if c.mult - 1 > 0 then c.mult - 1 else 1 }, none)
    else ({ c with side := .reader s' }, none)
  | .writer s =>
    let (s', a) := serverRecv (v.transfer c) s dg io.file io.sendOk io.nonce
    ({ c with side := .writer s', lastUpdated := if s'.w.written > s.w.written then t else c.lastUpdated },
      a.map (·.bytes))

/-- src/server/helpers/connection.rs:135-164 `timeout_client`: is the connection to be dropped, and the message sent. -/
def Srv.timeout {S} (v : Srv S) (c : Conn) (t : Nat) (io : RecvIo) : Bool × Option Bytes :=
  if c.failed || c.finished then (true, none)
  else if t - c.lastUpdated ≤ v.cfg.requestTimeout then (false, none)
  else (true, if io.sendOk then (v.transfer c).codec.enc io.nonce (Packet.error .accessViolation []).toBytes else none)

/-! ### The single threaded server -/

/-- The connection table and the round robin pointer. -/
structure SrvSt where
  clients : List (Addr × Conn)
  next : Nat

/-- Is the client offered a sending turn: src/server/single_thread.rs:427-430. -/
def Conn.active (c : Conn) : Bool := match c.side with
  | .reader _ => !(c.failed || c.finished)
  | .writer _ => false

/-- One pass of src/server/single_thread.rs:425-455: offer turns to the active clients with index in `[lo, hi)` until one
sends. Result: the table, the index after the sender with the sender's address, and all packets sent. -/
def Srv.pass {S} (v : Srv S) (t : Nat) (io : Addr → SendIo) (lo : Nat) (hi : Option Nat) :
    Nat → List (Addr × Conn) → List (Addr × Conn) × Option (Nat × Addr) × List (Addr × Bytes)
  | _, [] => ([], none, [])
  | i, (a, c) :: rest =>
    if c.active then
      if lo ≤ i ∧ hi.all (fun h => decide (i < h)) = true then
        let (c', d, sent) := v.sendBlock c t (io a)
        let out := d.toList.map (a, ·)
        if sent then ((a, c') :: rest, some (i + 1, a), out)
        else
          let (rest, j, out') := v.pass t io lo hi (i + 1) rest
          ((a, c') :: rest, j, out ++ out')
      else
        let (rest, j, out) := v.pass t io lo hi (i + 1) rest
        ((a, c) :: rest, j, out)
    else
      let (rest, j, out) := v.pass t io lo hi i rest
      ((a, c) :: rest, j, out)

/-- src/server/single_thread.rs:419-458 `send_data_blocks`: the new state, who sent a block, all packets sent. (If a client
fails in the first pass the indexes move down, and a client can be offered a turn in both passes; simplification: the file and
the socket then behave the same way, `io`, in both.) -/
def Srv.sendRound {S} (v : Srv S) (s : SrvSt) (t : Nat) (io : Addr → SendIo) : SrvSt × Option Addr × List (Addr × Bytes) :=
  match v.pass t io s.next none 0 s.clients with
  | (cl, some (j, a), out) => (⟨cl, j⟩, some a, out)
  | (cl, none, out) => match v.pass t io 0 (some s.next) 0 cl with
    | (cl, some (j, a), out') => (⟨cl, j⟩, some a, out ++ out')
    | (cl, none, out') => (⟨cl, s.next⟩, none, out ++ out')

/-- Insertion into the connection table, which is ordered by address (`BTreeMap`, src/lib.rs:72). -/
def insertClient (a : Addr) (c : Conn) : List (Addr × Conn) → List (Addr × Conn)
  | [] => [(a, c)]
  | x :: r => if a < x.1 then (a, c) :: x :: r else x :: insertClient a c r

/-- What happens to the server. -/
inductive SrvEv
  /-- lines 149-154, every two seconds -/
  | purge (t : Nat) (io : Addr → RecvIo)
  /-- lines 158-162 -/
  | round (t : Nat) (io : Addr → SendIo)
  /-- lines 171-194, 239-255: a datagram on a client's socket -/
  | client (t : Nat) (a : Addr) (dg : Bytes) (io : RecvIo)
  /-- lines 202-237, 256-405: a datagram on the main socket -/
  | main (t : Nat) (a : Addr) (dg : Bytes) (io : NewIo)

/-- One step of src/server/single_thread.rs:146-416. -/
def Srv.step {S} (v : Srv S) (s : SrvSt) : SrvEv → SrvSt × List (Addr × Bytes)
  | .purge t io =>
    ({ s with clients := s.clients.filter fun x => !(v.timeout x.2 t (io x.1)).1 },
      s.clients.flatMap fun x => ((v.timeout x.2 t (io x.1)).2.toList.map (x.1, ·)))
  | .round t io => ((v.sendRound s t io).1, (v.sendRound s t io).2.2)
  | .client t a dg io =>
    ({ s with clients := s.clients.map fun x => if x.1 = a then (a, (v.handle x.2 t dg io).1) else x },
      s.clients.flatMap fun x => if x.1 = a then (v.handle x.2 t dg io).2.toList.map (a, ·) else [])
  | .main t a dg io =>
    if s.clients.any (fun x => x.1 == a) then (s, [])
    else if s.clients.length ≥ v.maxConn then (s, [])
    else
      let r := v.newConn t dg io
      match r.result with
      | .error _ => (s, r.replies.map (a, ·))
      | .ok (c, out) => ({ s with clients := insertClient a c s.clients }, (r.replies ++ out).map (a, ·))

/-- The state after a list of events. -/
def Srv.run {S} (v : Srv S) (s : SrvSt) (evs : List SrvEv) : SrvSt := evs.foldl (fun s e => (v.step s e).1) s

end Tftp

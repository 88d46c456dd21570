import Verif.TransferModel
import Verif.CryptoProps
import Verif.Negotiate
import Verif.Sizes
/-
The client: src/client/connection.rs (`query_server`), src/client/encryption_socket_builder.rs, src/client/encryption_socket.rs,
src/client/sender.rs (`send_file`) and src/client/receiver.rs (`receive_file`), from the first request to the result.

Time is in milliseconds, supplied by the inputs. The `encryption` and `alloc` features are on. Rate control is left out: whether
the retry interval has passed is an input of the sending turn. A panic of the socket's decryption (C29) is treated as a failed
decryption. The texts of error packets are empty. Errors of the transfer phase are all reported as `CliErr.io`, except the timeout.
-/
namespace Tftp

/-- A socket address. -/
structure Ep where
  ip : Nat
  port : Nat
deriving DecidableEq

/-- What `recv_from` of the operating system's socket gives: a datagram with its source, `WouldBlock` after the wait, or another
error. -/
inductive NetIn
  | dgram (src : Ep) (b : Bytes)
  | wouldBlock
  | error

/-! ### The socket -/

/-- src/client/encryption_socket.rs:23-29 `EncryptionBoundSocket`. -/
structure Sock where
  enc : Option Aead
  level : Level
  pub : Bytes
  blockSize : Nat

/-- src/client/encryption_socket.rs:93-134 `send_to`: the datagram put on the wire. -/
def Sock.send (k : Sock) (nonce b : Bytes) : Out Bytes :=
  match k.level, k.enc with
  | .protocol, some A | .full, some A =>
    if packetType b = some .read ∨ packetType b = some .write then sealInitial A nonce k.pub b (k.blockSize + 4)
    else sealPacket A nonce b (k.blockSize + 4)
  | .data, some A => if packetType b = some .data then sealData A nonce b else .ok b
  | _, _ => .ok b

/-- src/client/encryption_socket.rs:65-91 `recv_from` after the datagram has been read. It does not look at the source. -/
def Sock.recv (k : Sock) (b : Bytes) : Option Bytes :=
  match k.enc with
  | none => some b
  | some A => match unprotect A k.level b with
    | .ok p => some p
    | _ => none

/-! ### Configuration -/

/-- src/client/config.rs:9-19 `ClientConfig`. -/
structure CliCfg (S : SigScheme) where
  endpoint : Ep
  requestTimeout : Nat
  maxFileSize : Nat
  privateKey : Option (AuthKey S)
  remoteKey : Option Bytes
  allowPortChange : Bool
  preferSeek : Bool

/-- A client process: configuration, key exchange and nonces. `handshake k` is the cipher of the ephemeral key (public part
`handshakePub`) with the known server key `k`; `session k` the cipher of the session key (public part `sessionPub`) with the
server's session key `k`. -/
structure Cli (S : SigScheme) where
  cfg : CliCfg S
  sessionPub : Bytes
  handshakePub : Bytes
  handshake : Bytes → Aead
  session : Bytes → Aead
  nonce : Nat → Bytes
  nonce_length : ∀ i, (nonce i).length = 24

/-- What the user asked for: send a file (its size as reported by `create_reader` and its content), or fetch one (`writerOk`:
`create_writer` succeeds); the remote name; the options. -/
inductive Task
  | upload (size : Option Nat) (file : Bytes)
  | download (writerOk : Bool)

structure Job where
  task : Task
  name : Bytes
  opts : Opts

def Job.write (j : Job) : Bool := match j.task with
  | .upload _ _ => true
  | .download _ => false

/-- src/client/encryption_socket_builder.rs:17-55 `create_initial_socket`: socket and options. (The initial keys exist exactly if
the level is not `none`; they are part of `Cli`.) -/
def Cli.initialSock {S} (v : Cli S) (o : Opts) : Sock × Opts :=
  if o.level = .none then (⟨none, .none, [], o.blockSize⟩, o)
  else match v.cfg.remoteKey with
    | none => (⟨none, .none, [], o.blockSize⟩, o)
    | some k =>
      let o := if o.level = .protocol then { o with level := .full } else o
      (⟨some (v.handshake k), o.level, v.handshakePub, o.blockSize⟩, o)

/-- src/client/encryption_socket_builder.rs:57-88 `configure_socket`. -/
def Cli.configure {S} (v : Cli S) (k : Sock) (hasKeys : Bool) (o : Opts) (rk : Option RemoteKeys) : Sock :=
  let k : Sock := match hasKeys, rk with
    | true, some rk =>
      if o.level = Level.protocol ∨ o.level = Level.data ∨ o.level = Level.full then
        { k with enc := some (v.session rk.session), pub := v.sessionPub, level := o.level }
      else k
    | _, _ => k
  { k with blockSize := o.payload }

/-- The options with which the request is made: src/client/sender.rs:83-88, src/client/receiver.rs:77. -/
def Cli.requestOpts {S} (v : Cli S) (j : Job) : Opts :=
  let o := (v.initialSock j.opts).2
  match j.task with
  | .upload (some n) _ => if n > 0 then { o with fileSize := some n } else o
  | _ => o

/-- src/client/connection.rs:68-73: the request. -/
def Job.request (j : Job) (exts : Exts) : Packet := if j.write then .write ⟨j.name, exts⟩ else .read ⟨j.name, exts⟩

/-! ### The handshake -/

/-- What a reply of the server leads to. `accept`: `acknowledge`, the options, the server's keys, and the first data packet. -/
inductive Reply
  | accept (ack : Bool) (o : Opts) (rk : Option RemoteKeys) (first : Option Bytes)
  | again
  | fail (e : CliErr) (out : List Packet)

/-- src/client/connection.rs:94-166: the (decrypted) reply `b`. -/
def Cli.reply {S} (v : Cli S) (write : Bool) (o : Opts) (used : Exts) (initial : Bool) (b : Bytes) : Reply :=
  match Packet.fromBytes b with
  | .ok (.optionalAck se) =>
    match cliOack S v.cfg.privateKey.isSome v.cfg.remoteKey used o se with
    | (.ok (o', rk), _) => .accept true o' rk none
    | (.error e, out) => .fail e out
  | .ok (.ack _) => if write then .accept false (cliPlain o) none none else .fail .invalid []
  | .ok (.data _ _) => if write then .fail .invalid [] else .accept false (cliPlain o) none (some b)
  | .ok (.error code _) =>
    if (code = .illegalOperation ∨ code = .undefined) ∧ initial = true ∧ o.level = .none then .again
    else .fail .remoteError []
  | _ => .fail .invalid []

/-- Variables of `query_server` and `wait_for_initial_packet`: extensions of the request, extensions a reply may contain, first
attempt?, pause, start of the current attempt, room left in the receive buffer. -/
structure Query where
  exts : Exts
  used : Exts
  initial : Bool
  pause : Nat
  start : Nat
  room : Nat

/-- Transfer parameters after the handshake: src/client/sender.rs:132-182, src/client/receiver.rs:109-176. -/
def Cli.cfgOf {S} (v : Cli S) (k : Sock) (o : Opts) : Cfg where
  bs := o.payload
  W := o.window
  ackW := o.window
  cap := max o.blockSize 512
  max := v.cfg.maxFileSize
  sender := .client
  receiver := .client
  codec := match k.enc with
    | none => Codec.plain _
    | some A => Codec.level A k.level _ v.nonce v.nonce_length

/-- src/client/sender.rs:341-366 `block_reader`. -/
def Cli.kind {S} (v : Cli S) (window : Nat) : Kind := if v.cfg.preferSeek then .seek else if window = 1 then .single else .multi

/-- State of a client. `since`: the timer of the transfer loop; `auth`: the server's authorization key, part of the result.
`down`/`done` keep the receiver, whose writer holds the file written so far. -/
inductive CliSt
  | query (q : Query)
  | up (c : Cfg) (room : Nat) (ep : Ep) (s : SendSt) (since : Nat) (auth : Option Bytes)
  | down (c : Cfg) (room : Nat) (ep : Ep) (s : RecvSt) (since : Nat) (auth : Option Bytes)
  | done (r : Except CliErr (Nat × Option Bytes)) (file : Bytes)

/-- What the outside world does in one iteration of a loop of the client: the time at which `recv_from` returns and its result;
whether a send succeeds, with the nonces used; in the sending loop: is the retry interval over, does the file fail (with
`WouldBlock`?), and what the socket does with the data packet; in the receiving loop: what the file does. -/
structure CliIn where
  t : Nat
  recv : NetIn
  sendOk : Bool
  nonce : Nat
  nonce2 : Nat
  retry : Bool
  fail : Bool
  wb : Bool
  net : SendRes
  file : WriteIo

/-- The start: src/client/sender.rs:75-103, src/client/receiver.rs:64-84, src/client/connection.rs:57-66. -/
def Cli.start {S} (v : Cli S) (j : Job) (t : Nat) : Query :=
  let o := v.requestOpts j
  let e := createExtensions o (⟨v.sessionPub, v.cfg.privateKey⟩ : InitialKeys S)
  ⟨e, e, true, o.retry, t, recvBuffer o.blockSize⟩

/-- Sends a packet through a socket; `none`: it failed. -/
def Cli.put {S} (v : Cli S) (k : Sock) (i : Nat) (ok : Bool) (p : Packet) : Option Bytes :=
  match k.send (v.nonce i) p.toBytes with
  | .ok d => if ok then some d else none
  | _ => none

/-- src/client/receiver.rs:287-304 `handle_file_size` when the limit is exceeded: the error packet sent. -/
def Cfg.tooLarge (c : Cfg) (i : Nat) (ok : Bool) : List Bytes :=
  if ok then ((c.emit i none (.error .diskFull [])).map (·.bytes)).toList else []

/-- src/client/receiver.rs:128-159: the first data packet of a server which disregards the options. The state, the
acknowledgement, and the result if the function returns. -/
def firstData (c : Cfg) (s : RecvSt) (b : Bytes) (io : WriteIo) (sendOk : Bool) (nonce : Nat) :
    RecvSt × List Bytes × Option (Except CliErr (Nat × Option Bytes)) :=
  match Packet.fromBytes b with
  | .ok (.data blk data) =>
    if b.length > c.max then (s, c.tooLarge nonce sendOk, some (.error .invalid))
    else
      let (w, r) := wrapWrite s.w blk.toNat data io
      let s := { s with w := w }
      match r with
      | none => (s, [], some (.error .io))
      | some (written, index, block) =>
        let s := { s with total := s.total + written.getD 0 }
        let finish (s : RecvSt) (out : List Bytes) :=
          if b.length ≠ c.bs then (s, out, some (.ok (b.length, none))) else (s, out, none)
        if ackDue c s.lastAck index written then
          match c.emit nonce (some index) (.ack (UInt16.ofNat block)), sendOk with
          | some d, true => finish { s with lastAck := index } [d.bytes]
          | _, _ => (s, [], some (.error .io))
        else finish s []
  | _ => (s, [], none)

/-- The reply was accepted: src/client/sender.rs:132-182, src/client/receiver.rs:109-176. The state and the packets sent to the
server's address `ep`. -/
def Cli.accepted {S} (v : Cli S) (j : Job) (ep : Ep) (ack : Bool) (o : Opts) (rk : Option RemoteKeys) (first : Option Bytes)
    (i : CliIn) : CliSt × List Bytes :=
  let k := v.configure (v.initialSock j.opts).1 (j.opts.level ≠ .none) o rk
  let c := v.cfgOf k o
  let room := recvBuffer o.blockSize
  let auth := rk.bind (·.auth)
  let hs : Option (List Bytes) :=
    if ack then (if i.sendOk then (c.emit i.nonce2 (some 0) (.ack 0)).map fun d => [d.bytes] else none) else some []
  match j.task with
  | .upload _ file => match hs with
    | none => (.done (.error .io) [], [])
    | some out => (.up c room ep ⟨Reader.new (v.kind o.window) file o.payload o.window, 0, false, false⟩ i.t auth, out)
  | .download ok =>
    if ¬ ok then (.done (.error .io) [], [])
    else
      let s : RecvSt := ⟨Writer.new, 0, 0, false, false⟩
      let (s, out, r) := match first with
        | some b => firstData c s b i.file i.sendOk i.nonce2
        | none => (s, [], none)
      match r with
      | some r => (.done r s.w.out, out)
      | none =>
        if o.fileSize.getD 0 > v.cfg.maxFileSize then (.done (.error .invalid) s.w.out, out ++ c.tooLarge i.nonce2 i.sendOk)
        else match hs with
          | none => (.done (.error .io) s.w.out, out)
          | some a => (.down c room ep s i.t auth, out ++ a)

/-- One iteration of the loop of `wait_for_initial_packet` (src/client/connection.rs:191-224), and what `query_server` does when
it returns. The receive buffer keeps the length of what was received last (src/client/encryption_socket.rs:71): a datagram from
another host reduces the room for the next one. -/
def Cli.queryStep {S} (v : Cli S) (j : Job) (q : Query) (i : CliIn) : CliSt × List (Ep × Bytes) :=
  let k := (v.initialSock j.opts).1
  let o := v.requestOpts j
  match v.put k i.nonce i.sendOk (j.request q.exts) with
  | none => (.done (.error .io) [], [])
  | some req =>
    let out := [(v.cfg.endpoint, req)]
    match i.recv with
    | .error => (.done (.error .io) [], out)
    | .wouldBlock =>
      if i.t - q.start > v.cfg.requestTimeout then (.done (.error .timeout) [], out)
      else (.query { q with pause := min (v.cfg.requestTimeout - (i.t - q.start)) (q.pause * 2) }, out)
    | .dgram src d =>
      match k.recv (d.take q.room) with
      | none => (.done (.error .io) [], out)
      | some b =>
        if src.ip ≠ v.cfg.endpoint.ip then (.query { q with room := b.length }, out)
        else if src ≠ v.cfg.endpoint ∧ v.cfg.allowPortChange = false then (.done (.error .invalid) [], out)
        else match v.reply j.write o q.used q.initial b with
          | .fail e ps => (.done (.error e) [], out ++ (ps.filterMap (v.put k i.nonce2 i.sendOk)).map (src, ·))
          | .again => (.query ⟨Exts.empty, Exts.empty, false, o.retry, i.t, recvBuffer o.blockSize⟩, out)
          | .accept ack o' rk first =>
            let (s, ps) := v.accepted j src ack o' rk first i
            (s, out ++ ps.map (src, ·))

/-! ### The transfer loops -/

/-- Is the datagram an acknowledgement (of the sending loop)? -/
def Cfg.isAck (c : Cfg) (dg : Bytes) : Bool :=
  match c.codec.dec dg with
  | some b => match Packet.fromBytes b with
    | .ok (.ack _) => true
    | _ => false
  | none => false

/-- One iteration of the sending loop: src/client/sender.rs:184-339. -/
def Cli.upStep {S} (v : Cli S) (c : Cfg) (room : Nat) (ep : Ep) (s : SendSt) (since : Nat) (auth : Option Bytes) (i : CliIn) :
    CliSt × List (Ep × Bytes) :=
  let (s, d) := clientSendTick c s i.retry i.fail i.wb i.net i.nonce
  let out := (d.map (·.bytes)).toList.map (ep, ·)
  if s.failed then (.done (.error .io) [], out)
  else match i.recv with
    | .error => (.done (.error .io) [], out)
    | .wouldBlock =>
      if i.t - since > v.cfg.requestTimeout then (.done (.error .timeout) [], out) else (.up c room ep s since auth, out)
    | .dgram src dg =>
      let dg := dg.take room
      if (c.codec.dec dg).isNone then (.done (.error .io) [], out)
      else if src ≠ ep then (.up c room ep s since auth, out)
      else
        let s := clientSendRecv c s dg
        if s.failed then (.done (.error .io) [], out)
        else if s.finished then (.done (.ok (s.total, auth)) [], out)
        else (.up c room ep s (if c.isAck dg then i.t else since) auth, out)

/-- One iteration of the receiving loop: src/client/receiver.rs:179-259. -/
def Cli.downStep {S} (v : Cli S) (c : Cfg) (room : Nat) (ep : Ep) (s : RecvSt) (since : Nat) (auth : Option Bytes) (i : CliIn) :
    CliSt × List (Ep × Bytes) :=
  match i.recv with
  | .error => (.done (.error .io) s.w.out, [])
  | .wouldBlock =>
    if i.t - since > v.cfg.requestTimeout then (.done (.error .timeout) s.w.out, []) else (.down c room ep s since auth, [])
  | .dgram src dg =>
    let dg := dg.take room
    if (c.codec.dec dg).isNone then (.done (.error .io) s.w.out, [])
    else if src ≠ ep then (.down c room ep s since auth, [])
    else
      let (s', a) := clientRecv c s dg i.file i.sendOk i.nonce
      let out := (a.map (·.bytes)).toList.map (ep, ·)
      if s'.failed then (.done (.error .io) s'.w.out, out)
      else if s'.finished then (.done (.ok (s'.total, auth)) s'.w.out, out)
      else (.down c room ep s' (if s'.w.written > s.w.written then i.t else since) auth, out)

/-- One iteration. -/
def Cli.step {S} (v : Cli S) (j : Job) : CliSt → CliIn → CliSt × List (Ep × Bytes)
  | .query q, i => v.queryStep j q i
  | .up c room ep s since auth, i => v.upStep c room ep s since auth i
  | .down c room ep s since auth, i => v.downStep c room ep s since auth i
  | .done r f, _ => (.done r f, [])

/-- The state and everything sent after some iterations. -/
def Cli.runFrom {S} (v : Cli S) (j : Job) (s : CliSt) : List CliIn → CliSt × List (Ep × Bytes)
  | [] => (s, [])
  | i :: is =>
    let (s', out) := v.step j s i
    let (s'', out') := v.runFrom j s' is
    (s'', out ++ out')

/-- A client from its start at time `t`. -/
def Cli.run {S} (v : Cli S) (j : Job) (t : Nat) (is : List CliIn) : CliSt × List (Ep × Bytes) :=
  v.runFrom j (.query (v.start j t)) is

end Tftp

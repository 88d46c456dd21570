import Verif.Client
import Verif.Life
import Verif.ServerAdmit
/-
C52, C53: the real client (Client.lean), the real server as seen by that client (Life.lean; by C50 this is what both servers do for
one client among many) and a network between them, from the first request to the end. This file: the composed machine and the
assumptions about the network, the operating system and the two configurations. EndUp.lean: uploads, EndDown.lean: downloads.
-/
namespace Tftp

/-- A datagram on the network between the client and the server. `ep`: the server's address it goes to or comes from. `mark` is a ghost
field, used only by the age limit: how many bytes of the file the sending side had confirmed when the datagram was sent. -/
structure Pkt where
  ep : Ep
  bytes : Bytes
  mark : Nat

/-- The two processes, and what the client is to do; `stops`: the server is the multi threaded one. -/
structure Parties (S : SigScheme) where
  srv : Srv S
  cli : Cli S
  job : Job
  stops : Bool

/-- Everything. `conns`: every connection the server has had with this client, by the address of its socket, in its last state; `live`:
the one in the server's table; `up`, `down`: all datagrams ever sent. Ghost fields: `acc`: the acceptances among `down`;
`started`: what the operating system did for the connections (which file was opened); `sent`: how much of its file the client has confirmed. -/
structure World where
  conns : Ep → Option Conn
  live : Option Ep
  cli : CliSt
  up : List Pkt
  down : List Pkt
  acc : List (Ep × Bytes)
  started : List (Ep × NewIo)
  sent : Nat

/-- Replaces the value at one address. -/
def setAt (f : Ep → Option Conn) (e : Ep) (c : Conn) : Ep → Option Conn := fun x => if x = e then some c else f x

/-- The bytes confirmed to the sending side of a connection. -/
def World.clockOf (w : World) (c : Conn) : Nat := match c.side with
  | .reader s => s.total
  | .writer _ => w.sent

def World.clock (w : World) (e : Ep) : Nat := match w.conns e with
  | some c => w.clockOf c
  | none => w.sent

/-- What can happen: something to the server (`ep`: the address of the socket, if it opens one), or an iteration of a loop of the
client. -/
inductive WEv
  | server (ep : Ep) (e : LifeEv)
  | client (i : CliIn)

def LifeEv.opened (ep : Ep) : LifeEv → List (Ep × NewIo)
  | .start _ _ io => [(ep, io)]
  | _ => []

/-- The confirmed bytes after a step of the client. -/
def CliSt.confirmed (old : Nat) : CliSt → Nat
  | .up _ _ _ s _ _ => s.total
  | .done (.ok (n, _)) _ => n
  | _ => old

/-- One step. The server: Life.lean; a new connection answers from its own socket, a refusal comes from the main socket. The client:
Client.lean. -/
def Parties.step {S} (v : Parties S) (w : World) : WEv → World
  | .server ep e =>
    match w.live with
    | some l => match w.conns l with
      | none => w
      | some c =>
        let out := (v.srv.lifeStep v.stops (some c) e).2.map (⟨l, ·, w.clock l⟩)
        match (v.srv.lifeStep v.stops (some c) e).1 with
        | some c' => { w with conns := setAt w.conns l c', down := out ++ w.down }
        | none => { w with live := none, down := out ++ w.down }
    | none => match v.srv.lifeStep v.stops none e with
      | (some c, out) =>
        { w with
          conns := setAt w.conns ep c
          live := some ep
          down := out.map (⟨ep, ·, w.clockOf c⟩) ++ w.down
          acc := out.map (ep, ·) ++ w.acc
          started := e.opened ep ++ w.started }
      | (none, out) => { w with down := out.map (⟨v.cli.cfg.endpoint, ·, w.sent⟩) ++ w.down }
  | .client i =>
    { w with
      cli := (v.cli.step v.job w.cli i).1
      up := (v.cli.step v.job w.cli i).2.map (fun x => ⟨x.1, x.2, w.clock x.1⟩) ++ w.up
      sent := (v.cli.step v.job w.cli i).1.confirmed w.sent }

/-- The beginning, at time `t`. -/
def Parties.init {S} (v : Parties S) (t : Nat) : World := ⟨fun _ => none, none, .query (v.cli.start v.job t), [], [], [], [], 0⟩

/-! ### Assumptions -/

/-- The options of the client's request. -/
def Parties.asked {S} (v : Parties S) : Exts :=
  createExtensions (v.cli.requestOpts v.job) (⟨v.cli.sessionPub, v.cli.cfg.privateKey⟩ : InitialKeys S)

/-- The socket of the handshake. -/
def Parties.sock {S} (v : Parties S) : Sock := (v.cli.initialSock v.job.opts).1

def Parties.co {S} (v : Parties S) : Opts := v.cli.requestOpts v.job

/-- The two requests the client makes. -/
def Parties.ReqExts {S} (v : Parties S) (e : Exts) : Prop := e = v.asked ∨ v.co.level = .none ∧ e = Exts.empty

/-- A request of the client on the wire. -/
def Parties.IsReq {S} (v : Parties S) (dg : Bytes) : Prop :=
  ∃ e i, v.ReqExts e ∧ v.cli.put v.sock i true (v.job.request e) = some dg

/-- An error packet with which the server refuses a request of the client. -/
def Parties.Refusal {S} (v : Parties S) (d : Bytes) : Prop := ∃ t dg io, v.IsReq dg ∧ d ∈ (v.srv.newConn t dg io).replies

/-- The age limit of the network, if there is one (otherwise the files must be small, see `Spec.Honest` and `Spec.Os`): a datagram which
was sent when `mark` bytes were confirmed does not arrive any more when `now` bytes are. -/
def Spec.Aged (late : Option Nat) (mark now : Nat) : Prop := ∀ l, late = some l → now ≤ mark + l

/-- A packet with which `query_server` (src/client/connection.rs:94-147) leaves the handshake. -/
def Spec.Answer (b : Bytes) : Prop :=
  (∃ e, Packet.fromBytes b = .ok (.optionalAck e)) ∨ (∃ n, Packet.fromBytes b = .ok (.ack n)) ∨ ∃ n x, Packet.fromBytes b = .ok (.data n x)

/-- Data, an acknowledgement or an error: everything except requests and acceptances. -/
def Spec.Payload : Packet → Prop
  | .data .. | .ack .. | .error .. => True
  | _ => False

/-- A datagram of a transfer: the server's connection at `src` reads it as data, an acknowledgement or an error. -/
def Spec.OfTransfer {S} (v : Parties S) (w : World) (src : Ep) (d : Bytes) : Prop :=
  ∃ c p, w.conns src = some c ∧ (v.srv.transfer c).codec.dec d = some p.toBytes ∧ Spec.Payload p

/-- Levels at which only data packets, or none, are encrypted: acknowledgements and errors travel in the clear. -/
def Spec.OpenControl (l : Level) : Prop := l = .none ∨ l = .data ∨ l = .optionalData

/-- What the operating system does for a new connection: session keys have 32 bytes and the two sides compute the same cipher from them;
files have less than 2^64 bytes, and are small if there is no age limit. -/
structure Spec.Os {S} (v : Parties S) (late : Option Nat) (io : NewIo) : Prop where
  key : io.sessionPub.length = 32
  exchange : v.srv.session ⟨io.sessionPub, v.cli.sessionPub⟩ = v.cli.session io.sessionPub
  size : ∀ name n file, io.openRead name = some (some n, file) → n < 2 ^ 64
  small : ∀ name n file, late = none → io.openRead name = some (n, file) → file.length ≤ 26000000

/-- The session cipher of a connection does not open what was not encrypted with it: the acceptance; and, if the connection has the
server's main address, the client's requests and the server's refusals (nor the beginning of one). -/
def Spec.Foreign {S} (v : Parties S) (ep : Ep) (c : Conn) (out : List Bytes) : Prop :=
  (∀ d ∈ out, (v.srv.transfer c).codec.dec d = none) ∧
  (ep = v.cli.cfg.endpoint → (∀ d, v.IsReq d → (v.srv.transfer c).codec.dec d = none) ∧
    ∀ d n, v.Refusal d → (v.srv.transfer c).codec.dec (d.take n) = none)

/-- What is assumed of an event. Datagrams: those to the server's main socket and to the connection's socket are datagrams the client
sent there, in any order, any number of times, or never; those the client reads from the server's host likewise; or they are forged: anything
which does not open under the receiving side's cipher (an attacker who controls the network but does not have the keys). While it waits for
the first answer the client sees only datagrams of the server (or what does not open), and, except for uploads whose acknowledgements are
not encrypted, what it takes for the answer is not a datagram of the transfer, which has overtaken the acceptance (see `Spec.Answer`; this can not
happen if the session's ciphertexts do not open under the cipher of the handshake); during the transfer there may be datagrams of anybody else. Files take a whole block or fail. A
new socket has an address of the server's host which no connection of this client had before: a new port, or (the first time) the port of
the main socket, see `require_server_port_change` (src/server/connection_builder.rs:179-182, 281-284). -/
def Spec.Allowed {S} (v : Parties S) (late : Option Nat) (w : World) : WEv → Prop
  | .server ep (.start t dg io) => w.live = none →
      (∃ p ∈ w.up, p.ep = v.cli.cfg.endpoint ∧ p.bytes = dg) ∧
      -- if a connection had the main address: datagrams of its transfer are not taken for requests
      ((w.conns v.cli.cfg.endpoint).isSome → v.srv.requestOf dg ≠ none → v.IsReq dg) ∧
      (ep.ip = v.cli.cfg.endpoint.ip ∧ w.conns ep = none) ∧ Spec.Os v late io ∧
      -- the session cipher does not open what was not encrypted with it
      (∀ c out, (v.srv.newConn t dg io).result = .ok (c, out) → c.opts.level = .protocol ∨ c.opts.level = .full →
        Spec.Foreign v ep c out)
  | .server _ (.recv _ dg io) => ∀ l, w.live = some l →
      ((∃ p ∈ w.up, p.ep = l ∧ p.bytes = dg ∧ Spec.Aged late p.mark (w.clock l)) ∨
        ∀ c, w.conns l = some c → (v.srv.transfer c).codec.dec dg = none) ∧ (io.file = .all ∨ io.file = .err)
  | .server _ _ => True
  | .client i => (i.file = .all ∨ i.file = .err) ∧ ∀ src d, i.recv = .dgram src d → match w.cli with
      | .query q => ((∃ p ∈ w.down, p.ep = src ∧ p.bytes = d) ∨ v.sock.recv (d.take q.room) = none) ∧
        (v.job.write = true ∧ Spec.OpenControl v.job.opts.level ∨ ∀ b, v.sock.recv (d.take q.room) = some b → Spec.Answer b →
          Spec.OfTransfer v w src d → (src, d) ∈ w.acc)
      | .up cf room ep _ _ _ | .down cf room ep _ _ _ =>
        src = ep → (∃ p ∈ w.down, p.ep = src ∧ p.bytes = d ∧ Spec.Aged late p.mark (w.clock src)) ∨
          cf.codec.dec (d.take room) = none
      | .done _ _ => True

/-- What is assumed of the configurations: numbers in the ranges of their types; key lengths; a server key known to the client is
the server's, and both compute the same handshake cipher; a plain request does not by chance decrypt under the server's key; the
limit on the age of datagrams suits the window size (block numbers have 16 bits and are told apart within 10000), or the file
is small. -/
structure Spec.Honest {S} (v : Parties S) (late : Option Nat) : Prop where
  maxBlock : 512 ≤ v.srv.cfg.maxBlock ∧ v.srv.cfg.maxBlock ≤ 65535
  maxWindow : 1 ≤ v.srv.cfg.maxWindow ∧ v.srv.cfg.maxWindow ≤ 65535
  sessionPub : v.cli.sessionPub.length = 32
  handshakePub : v.cli.handshakePub.length = 32
  name : Spec.Text v.job.name
  blockSize : v.job.opts.blockSize ≤ 65535
  window : 1 ≤ v.job.opts.window ∧ v.job.opts.window ≤ 65535
  retry : v.job.opts.retry < 2 ^ 64
  size : ∀ n, v.job.opts.fileSize = some n → n < 2 ^ 64
  known : ∀ k, v.cli.cfg.remoteKey = some k → (∃ a, v.srv.cfg.privateKey = some a ∧ a.pub = k) ∧
    v.cli.handshake k = v.srv.handshake v.cli.handshakePub
  plain : ∀ e, (e = Exts.empty ∨ e = createExtensions (v.cli.requestOpts v.job) (⟨v.cli.sessionPub, v.cli.cfg.privateKey⟩ : InitialKeys S)) →
    v.srv.openRequest (v.job.request e).toBytes = (none, (v.job.request e).toBytes)
  task : match v.job.task with
    | .upload n file => (∀ k, n = some k → k < 2 ^ 64) ∧ (late = none → file.length ≤ 26000000)
    | .download _ => v.job.opts.fileSize = none ∨ v.job.opts.fileSize = some 0
  late : ∀ l, late = some l → l / 471 + v.job.opts.window + 1 ≤ 10000

/-- What can be reached. -/
inductive Spec.Reach {S} (v : Parties S) (late : Option Nat) : World → Prop
  | init (t : Nat) : Spec.Reach v late (v.init t)
  | step (w : World) (e : WEv) : Spec.Reach v late w → Spec.Allowed v late w e → Spec.Reach v late (v.step w e)

end Tftp

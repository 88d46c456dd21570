import Verif.ServerLoop
/-
The sockets of the single threaded server: std-binary/src/socket.rs (`UdpUnboundSocket` with its poller and its set of notified
sockets), the socket numbers and the receiving part of src/server/single_thread.rs. ServerLoop.lean takes the datagram a client's
socket delivers as an input; here it comes from the socket's queue, if the server looks at this socket at all.
C67: no datagram is overlooked.

The kernel's poller is modelled as it is used by the `polling` crate: a socket is reported once after it has been armed and then
not until it is armed again (one shot); a socket which is armed while something waits is reported (level triggered); the sockets
which are ready wait in a queue in the order in which they became ready, and a call of `wait` reports as many from its front as
there is room for, at least one. Errors of the poller itself (`modify`, `add`, `wait`) are left out.
-/
namespace Tftp

/-- What waits at a client's socket: a datagram, or an error to be reported by the next `recv` (port unreachable). -/
inductive Item
  | data (d : Bytes)
  | err
deriving DecidableEq

/-- A client's socket: std-binary/src/socket.rs:236-241 `UdpBoundSocket`, its queue in the kernel and whether the server's poller
reports it when it is ready. -/
structure PSock where
  id : Nat
  queue : List Item
  armed : Bool

/-- std-binary/src/socket.rs:142-150 `UdpUnboundSocket` with the kernel's side of it, and `client_socket_id` of
src/server/single_thread.rs:113. `fifo`: sockets ready to be reported, `none` is the server's main socket, whose number is 0. -/
structure PollSt where
  sock : Addr → Option PSock
  mainQ : List (Addr × Bytes)
  mainArmed : Bool
  fifo : List (Option Addr)
  notified : List Nat
  lastId : Nat

/-- src/server/single_thread.rs:113-114 and `create_socket` (std-binary/src/socket.rs:62-102). -/
def PollSt.new : PollSt := ⟨fun _ => none, [], true, [], [], 1⟩

/-- Something new for a socket. Datagrams for sockets which are closed are lost. -/
inductive Arrival
  | client (a : Addr) (x : Item)
  | main (a : Addr) (d : Bytes)

/-- The kernel: a socket is queued as ready unless it is queued already. -/
def enqueue (x : Option Addr) (l : List (Option Addr)) : List (Option Addr) := if x ∈ l then l else l ++ [x]

/-- The kernel receives something for a socket. -/
def PollSt.arrive (P : PollSt) : Arrival → PollSt
  | .client a x => match P.sock a with
    | none => P
    | some s =>
      { P with
        sock := fun b => if b = a then some { s with queue := s.queue ++ [x] } else P.sock b
        fifo := if s.armed then enqueue (some a) P.fifo else P.fifo }
  | .main a d => { P with mainQ := P.mainQ ++ [(a, d)], fifo := if P.mainArmed then enqueue none P.fifo else P.fifo }

/-- std-binary/src/socket.rs:205-220 `modify_interest` for a client's socket. -/
def PollSt.rearm (P : PollSt) (a : Addr) : PollSt := match P.sock a with
  | none => P
  | some s =>
    { P with
      sock := fun b => if b = a then some { s with armed := true } else P.sock b
      fifo := if s.queue = [] then P.fifo else enqueue (some a) P.fifo
      notified := P.notified.filter (· ≠ s.id) }

/-- std-binary/src/socket.rs:205-220 `modify_interest` for the main socket, number 0. -/
def PollSt.rearmMain (P : PollSt) : PollSt :=
  { P with
    mainArmed := true
    fifo := if P.mainQ = [] then P.fifo else enqueue none P.fifo
    notified := P.notified.filter (· ≠ 0) }

/-- Does something wait at the socket? -/
def PollSt.waiting (P : PollSt) : Option Addr → Bool
  | none => !P.mainQ.isEmpty
  | some a => match P.sock a with
    | none => false
    | some s => !s.queue.isEmpty

/-- std-binary/src/socket.rs:160-163: the poller reports the first `n + 1` of the sockets which are ready; the numbers of these are
put into `notified`. -/
def PollSt.wait (P : PollSt) (n : Nat) : PollSt :=
  let live := P.fifo.filter P.waiting
  let rep := live.take (n + 1)
  { P with
    fifo := live.drop (n + 1)
    mainArmed := P.mainArmed && !decide (none ∈ rep)
    sock := fun a => (P.sock a).map fun s => if some a ∈ rep then { s with armed := false } else s
    notified := P.notified ++ rep.filterMap fun
      | none => some 0
      | some a => (P.sock a).map (·.id) }

/-- src/server/single_thread.rs:265-268: the number of the next client's socket (`NonZeroU32`). -/
def nextId (n : Nat) : Nat := if n + 1 < 2 ^ 32 then n + 1 else 1

/-- A client is accepted: src/server/connection_builder.rs:192, 293 `add_interest` (std-binary/src/socket.rs:197-203) and
src/server/single_thread.rs:349. -/
def PollSt.register (P : PollSt) (a : Addr) : PollSt :=
  { P with sock := fun b => if b = a then some ⟨nextId P.lastId, [], true⟩ else P.sock b, lastId := nextId P.lastId }

/-- Clients which are not in the table any more are dropped with their sockets; `notified` keeps their numbers. -/
def PollSt.keep (P : PollSt) (l : List Addr) : PollSt :=
  { P with
    sock := fun a => if a ∈ l then P.sock a else none
    fifo := P.fifo.filter fun
      | none => true
      | some a => decide (a ∈ l) }

/-- Something is taken out of a client's socket: std-binary/src/socket.rs:244-255 `recv`. -/
def PollSt.pop (P : PollSt) (a : Addr) : PollSt :=
  { P with sock := fun b => if b = a then (P.sock a).map fun s => { s with queue := s.queue.tail } else P.sock b }

/-- What src/server/single_thread.rs:171-194 gets from the clients' sockets: what was taken out, how many were asked, and the
datagram with its sender. -/
structure Scan where
  st : PollSt
  took : List (Addr × Item)
  asked : Nat
  read : Option (Addr × Bytes)

/-- src/server/single_thread.rs:171-194: ask the clients given, in this order, until one has a datagram. Simplification: nothing
arrives meanwhile; what arrives at a client's socket before this client is asked counts as there from the beginning, what arrives
later as coming after the last one was asked. -/
def PollSt.scan (P : PollSt) : List Addr → Scan
  | [] => ⟨P, [], 0, none⟩
  | a :: r =>
    let skip (P : PollSt) (t : List (Addr × Item)) : Scan :=
      let R := P.scan r
      ⟨R.st, t ++ R.took, R.asked + 1, R.read⟩
    match P.sock a with
    | none => skip P []
    | some s =>
      if s.id ∈ P.notified then
        match s.queue with
        | [] => skip P []
        | .err :: _ => skip (P.pop a) [(a, .err)]
        | .data d :: _ => ⟨(P.pop a).rearm a, [(a, .data d)], 1, some (a, d)⟩
      else skip P []

/-- The datagram `scan` would get from a client. -/
def PollSt.ready (P : PollSt) (a : Addr) : Option Bytes := match P.sock a with
  | none => none
  | some s => if s.id ∈ P.notified then (match s.queue with
    | .data d :: _ => some d
    | _ => none) else none

/-- The outside of one iteration, as in `Turn`, with what the kernel receives before the clients' sockets are asked and while the
server waits at its main socket, and the room there is for reports (at least one). -/
structure PTurn where
  tp : Nat
  ts : Nat
  tr : Nat
  pio : Addr → RecvIo
  sio : Addr → SendIo
  rio : RecvIo
  nio : NewIo
  before : List Arrival
  during : List Arrival
  room : Nat

/-- The iteration in the terms of ServerLoop.lean. -/
def PTurn.turn (i : PTurn) (ready : Addr → Option Bytes) (main : Option (Addr × Bytes)) : Turn :=
  ⟨i.tp, i.ts, i.tr, i.pio, i.sio, ready, i.rio, main.map fun x => (x.1, x.2, i.nio)⟩

/-- What an iteration did with the sockets. -/
structure POut where
  took : List (Addr × Item)
  mainTook : Option (Addr × Bytes)
  accepted : Option Addr
  out : TurnOut

/-- The sockets when the clients are asked: those of dropped clients are closed (src/server/single_thread.rs:149-154). -/
def Srv.asked {S} (v : Srv S) (L : LoopSt) (P : PollSt) (i : PTurn) : PollSt :=
  i.before.foldl PollSt.arrive (P.keep (v.seen L (i.turn (fun _ => none) none)))

/-- The sockets after `recv_from` of the main socket has waited: std-binary/src/socket.rs:159-163. -/
def PollSt.polled (P : PollSt) (i : PTurn) : PollSt := (i.during.foldl PollSt.arrive P.rearmMain).wait i.room

/-- One iteration of src/server/single_thread.rs:146-416 with its sockets. -/
def Srv.piter {S} (v : Srv S) (L : LoopSt) (P : PollSt) (i : PTurn) : LoopSt × PollSt × POut :=
  let addrs := v.seen L (i.turn (fun _ => none) none)
  let P2 := v.asked L P i
  let R := P2.scan (addrs.drop L.nextRecv)
  let P3 := R.st.polled i
  let mainTook := match R.read with
    | some _ => none
    | none => P3.mainQ.head?
  let r := v.iter L (i.turn P2.ready mainTook)
  let accepted := match mainTook with
    | some (a, _) => if a ∈ r.1.srv.addrs ∧ a ∉ addrs then some a else none
    | none => none
  let P4 := match R.read with
    | some _ => R.st
    | none => { P3 with mainQ := P3.mainQ.tail }
  (r.1, (match accepted with
    | some a => P4.register a
    | none => P4), ⟨R.took, mainTook, accepted, r.2⟩)

/-- The state of server and sockets after a list of iterations. -/
def Srv.ploop {S} (v : Srv S) (t0 : Nat) (is : List PTurn) : LoopSt × PollSt :=
  is.foldl (fun X i => ((v.piter X.1 X.2 i).1, (v.piter X.1 X.2 i).2.1)) (⟨⟨[], 0⟩, t0, 0, Wait.new⟩, PollSt.new)

/-- What iteration `k` did. -/
def Srv.pout {S} (v : Srv S) (t0 : Nat) (is : List PTurn) (k : Nat) : Option POut :=
  is[k]?.map fun i => (v.piter (v.ploop t0 (is.take k)).1 (v.ploop t0 (is.take k)).2 i).2.2

end Tftp

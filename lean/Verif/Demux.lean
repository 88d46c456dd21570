import Verif.Multi
/-
C86: which socket gets a datagram. The server's sockets as the kernel sees them (std-binary/src/socket.rs): the main socket, and one socket for each
connection, first bound to the server's port (or a new one) and then connected to the client's address, both with `SO_REUSEPORT`.
-/
namespace Tftp

/-- A UDP socket of the server. `owner`: the client whose connection it belongs to (`none`: the main socket); `peer`: the address it is connected
to; `queue`: what has arrived and has not been read, with the address it came from. -/
structure KSock where
  port : Nat
  owner : Option Addr
  peer : Option Addr
  queue : List (Addr × Bytes)
deriving DecidableEq

/-- One of the two servers, as far as its sockets go: its events for a datagram on the main socket and on a connection's socket, and for which addresses
it has a connection. -/
structure Process (σ ε : Type) where
  step : σ → ε → σ
  main : Nat → Addr → Bytes → NewIo → ε
  recv : Nat → Addr → Bytes → RecvIo → ε
  conn : σ → Addr → Option Conn

/-- The single threaded server: src/server/single_thread.rs. -/
def Srv.process {S} (v : Srv S) : Process SrvSt SrvEv := ⟨fun s e => (v.step s e).1, .main, .client, SrvSt.conn⟩

/-- The multi threaded server: src/server/multi_thread.rs. -/
def Srv.mprocess {S} (v : Srv S) : Process MSt MEv :=
  ⟨fun s e => (v.mstep s e).1, .main, fun t a dg io => .thread a (.dgram t dg io), MSt.conn⟩

/-- The server and its sockets. `next`: descriptors from here on have not been used. `strays` (for the specification): client, source and contents of the
datagrams which have arrived on a socket which was bound for this client but not yet connected to it. -/
structure Host (σ : Type) where
  srv : σ
  sock : Nat → Option KSock
  next : Nat
  strays : List (Addr × Addr × Bytes)

/-- What happens. `to`: the socket which the kernel chooses. -/
inductive HostEv (ε : Type)
  | arrive (port : Nat) (src : Addr) (dg : Bytes) (to : Option Nat)
  | main (t : Nat) (io : NewIo) (port : Nat)
  | connect (id : Nat)
  | recv (id : Nat) (t : Nat) (io : RecvIo)
  | other (e : ε)

/-- After a step of the server: the sockets of connections which are over are closed (the `Drop` of the socket in `Connection`,
src/server/connection.rs:20-33). -/
def closeOld {σ ε} (P : Process σ ε) (s : σ) (sock : Nat → Option KSock) : Nat → Option KSock := fun i =>
  match sock i with
  | some k => match k.owner with
    | some a => if (P.conn s a).isSome then some k else none
    | none => some k
  | none => none

/-- One step, and the event of the server, if it is one, with the address the datagram really came from.

`main`: std-binary/src/socket.rs:155-173 `recv_from` on the main socket; if it makes a new connection, its socket is bound
(std-binary/src/socket.rs:104-122 `create_bound_socket` up to `bind`; src/server/connection_builder.rs:179-184, 281-286) to `port`.
`connect`: std-binary/src/socket.rs:126; it leaves what has arrived before in the queue. `recv`: std-binary/src/socket.rs:243-255, a
connected socket; the source is not looked at (src/server/connection.rs:62-68). Simplification: the connection is in the server's table before its
socket is connected; but nothing is read from the socket before. Sockets of connections which are refused after `bind` are left out. -/
def Process.hostStep {σ ε} (P : Process σ ε) (h : Host σ) : HostEv ε → Host σ × Option (ε × Option Addr)
  | .arrive _ src dg to => match to with
    | none => (h, none)
    | some i => match h.sock i with
      | none => (h, none)
      | some k => ({ h with
          sock := fun j => if j = i then some { k with queue := k.queue ++ [(src, dg)] } else h.sock j
          strays := match k.owner, k.peer with
            | some a, none => (a, src, dg) :: h.strays
            | _, _ => h.strays }, none)
  | .main t io port => match h.sock 0 with
    | some k => match k.queue with
      | (src, dg) :: rest =>
        let s' := P.step h.srv (P.main t src dg io)
        let sock : Nat → Option KSock := fun j => if j = 0 then some { k with queue := rest } else h.sock j
        if (P.conn h.srv src).isNone ∧ (P.conn s' src).isSome then
          ({ h with
            srv := s'
            sock := fun j => if j = h.next then some ⟨port, some src, none, []⟩ else closeOld P s' sock j
            next := h.next + 1 }, some (P.main t src dg io, some src))
        else ({ h with srv := s', sock := closeOld P s' sock }, some (P.main t src dg io, some src))
      | [] => (h, none)
    | none => (h, none)
  | .connect i => match h.sock i with
    | some k => ({ h with sock := fun j => if j = i then some { k with peer := k.owner } else h.sock j }, none)
    | none => (h, none)
  | .recv i t io => match h.sock i with
    | some k => match k.owner, k.peer, k.queue with
      | some a, some _, (src, dg) :: rest =>
        let s' := P.step h.srv (P.recv t a dg io)
        ({ h with
          srv := s'
          sock := closeOld P s' fun j => if j = i then some { k with queue := rest } else h.sock j }, some (P.recv t a dg io, some src))
      | _, _, _ => (h, none)
    | none => (h, none)
  | .other e => ({ h with srv := P.step h.srv e, sock := closeOld P (P.step h.srv e) h.sock }, some (e, none))

/-- The beginning: the main socket (std-binary/src/socket.rs:62-100 `create_socket`; src/server/single_thread.rs:114). -/
def Host.init {σ} (s : σ) (listen : Nat) : Host σ := ⟨s, fun i => if i = 0 then some ⟨listen, none, none, []⟩ else none, 1, []⟩

/-- Whether the kernel may give a datagram from `src` for `port` to the socket `i`: a socket connected to `src` goes first; if there is none, any
socket of this port which is not connected (with `SO_REUSEPORT` there can be several). -/
def Spec.Takes {σ} (h : Host σ) (i port : Nat) (src : Addr) : Prop :=
  ∃ k, h.sock i = some k ∧ k.port = port ∧
    (k.peer = some src ∨ k.peer = none ∧ ∀ j k', h.sock j = some k' → k'.port = port → k'.peer ≠ some src)

/-- What is assumed of the kernel; of the other events: they are not datagrams; a new socket has the server's port, or one which is free. -/
def Spec.Kernel {σ ε} (P : Process σ ε) (listen : Nat) (h : Host σ) : HostEv ε → Prop
  | .arrive port src _ to => ∀ i, to = some i → Spec.Takes h i port src
  | .main _ _ port => port = listen ∨ ∀ j k, h.sock j = some k → k.port ≠ port
  | .other e => (∀ t a dg io, e ≠ P.main t a dg io) ∧ ∀ t a dg io, e ≠ P.recv t a dg io
  | _ => True

/-- What can be reached, with the events of the server so far and where the datagrams came from. -/
inductive Spec.HostRun {σ ε} (P : Process σ ε) (s0 : σ) (listen : Nat) : Host σ → List (ε × Option Addr) → Prop
  | init : HostRun P s0 listen (Host.init s0 listen) []
  | step (h : Host σ) (es : List (ε × Option Addr)) (e : HostEv ε) : HostRun P s0 listen h es → Spec.Kernel P listen h e →
      HostRun P s0 listen (P.hostStep h e).1 (es ++ (P.hostStep h e).2.toList)

/-! ### Proof -/

/-- A step of the server opens at most a connection for the address it got a datagram from. -/
structure Process.Sound {σ ε} (P : Process σ ε) (Inv : σ → Prop) : Prop where
  keep : ∀ s e, Inv s → Inv (P.step s e)
  main : ∀ s t a dg io b, Inv s → b ≠ a → P.conn s b = none → P.conn (P.step s (P.main t a dg io)) b = none
  other : ∀ s e b, Inv s → (∀ t a dg io, e ≠ P.main t a dg io) → P.conn s b = none → P.conn (P.step s e) b = none
  recv : ∀ t a dg io t' a' dg' io', P.recv t a dg io ≠ P.main t' a' dg' io'
  inj : ∀ t a dg io t' a' dg' io', P.recv t a dg io = P.recv t' a' dg' io' → a = a' ∧ dg = dg'

structure HostInv {σ ε} (P : Process σ ε) (Inv : σ → Prop) (listen : Nat) (h : Host σ) : Prop where
  srv : Inv h.srv
  zero : ∃ q, h.sock 0 = some ⟨listen, none, none, q⟩
  next : 0 < h.next ∧ ∀ i k, h.sock i = some k → i < h.next
  owner : ∀ i k, h.sock i = some k → i ≠ 0 → ∃ a, k.owner = some a ∧ (k.peer = none ∨ k.peer = some a)
  table : ∀ i k a, h.sock i = some k → k.owner = some a → (P.conn h.srv a).isSome
  found : ∀ a, (P.conn h.srv a).isSome → ∃ i k, h.sock i = some k ∧ k.owner = some a
  one : ∀ i j k k' a, h.sock i = some k → h.sock j = some k' → k.owner = some a → k'.owner = some a → i = j
  from' : ∀ i k a x, h.sock i = some k → k.owner = some a → x ∈ k.queue → x.1 = a ∨ (a, x.1, x.2) ∈ h.strays


theorem closeOld_some {σ ε} {P : Process σ ε} {s : σ} {sock : Nat → Option KSock} {i : Nat} {k : KSock} (h : closeOld P s sock i = some k) :
    sock i = some k ∧ ∀ a, k.owner = some a → (P.conn s a).isSome := by
  unfold closeOld at h
  cases hk : sock i with
  | none => rw [hk] at h; cases h
  | some k' =>
    rw [hk] at h
    simp only at h
    cases ho : k'.owner with
    | none => rw [ho] at h; cases h; exact ⟨rfl, fun a ha => by rw [ho] at ha; cases ha⟩
    | some a =>
      rw [ho] at h
      simp only at h
      split at h
      · cases h; exact ⟨rfl, fun b hb => by rw [ho] at hb; cases hb; assumption⟩
      · cases h

theorem closeOld_keep {σ ε} {P : Process σ ε} {s : σ} {sock : Nat → Option KSock} {i : Nat} {k : KSock} (h : sock i = some k)
    (ho : ∀ a, k.owner = some a → (P.conn s a).isSome) : closeOld P s sock i = some k := by
  unfold closeOld
  rw [h]
  simp only
  cases hk : k.owner with
  | none => rfl
  | some a => simp only [ho a hk, ↓reduceIte]

theorem hostInv_init {σ ε} {P : Process σ ε} {Inv : σ → Prop} {s0 : σ} (listen : Nat) (hs : Inv s0) (h0 : ∀ a, P.conn s0 a = none) :
    HostInv P Inv listen (Host.init s0 listen) := by
  have hz : ∀ i k, (Host.init s0 listen).sock i = some k → i = 0 ∧ k = ⟨listen, none, none, []⟩ := by
    intro i k h
    simp only [Host.init] at h
    split at h
    · cases h; exact ⟨by assumption, rfl⟩
    · cases h
  refine ⟨hs, ⟨[], rfl⟩, ⟨Nat.one_pos, fun i k h => ?_⟩, fun i k h hi => absurd (hz i k h).1 hi, fun i k a h ho => ?_, fun a ha => ?_,
    fun i j k k' a h h' _ _ => ?_, fun i k a x h ho => ?_⟩
  · rw [(hz i k h).1]; exact Nat.one_pos
  · rw [(hz i k h).2] at ho; cases ho
  · have : P.conn (Host.init s0 listen).srv a = none := h0 a
    rw [this] at ha; cases ha
  · rw [(hz i k h).1, (hz j k' h').1]
  · rw [(hz i k h).2] at ho; cases ho

/-- A socket is replaced by one of the same port and owner. -/
theorem hostInv_change {σ ε} {P : Process σ ε} {Inv : σ → Prop} {listen : Nat} {h : Host σ} (hi : HostInv P Inv listen h) (i : Nat) (k k' : KSock)
    (hk : h.sock i = some k) (hp : k'.port = k.port) (ho : k'.owner = k.owner) (hpe : k'.peer = k.peer ∨ k'.peer = k.owner)
    (strays : List (Addr × Addr × Bytes)) (hs : ∀ x ∈ h.strays, x ∈ strays)
    (hq : ∀ a x, k.owner = some a → x ∈ k'.queue → x.1 = a ∨ (a, x.1, x.2) ∈ strays) :
    HostInv P Inv listen { h with sock := fun j => if j = i then some k' else h.sock j, strays := strays } := by
  have hc : ∀ j kj, (if j = i then some k' else h.sock j) = some kj → j = i ∧ kj = k' ∨ j ≠ i ∧ h.sock j = some kj := by
    intro j kj hj
    split at hj
    · cases hj; exact .inl ⟨by assumption, rfl⟩
    · exact .inr ⟨by assumption, hj⟩
  have hold : ∀ j kj, (if j = i then some k' else h.sock j) = some kj → ∃ ko, h.sock j = some ko ∧ ko.owner = kj.owner := by
    intro j kj hj
    rcases hc j kj hj with ⟨rfl, rfl⟩ | ⟨_, hj⟩
    · exact ⟨k, hk, ho.symm⟩
    · exact ⟨kj, hj, rfl⟩
  refine ⟨hi.srv, ?_, ⟨hi.next.1, fun j kj hj => ?_⟩, fun j kj hj hj0 => ?_, fun j kj a hj ha => ?_, fun a ha => ?_,
    fun j l kj kl a hj hl ha hb => ?_, fun j kj a x hj ha hx => ?_⟩
  · obtain ⟨q, hz⟩ := hi.zero
    by_cases h0 : i = 0
    · subst h0
      rw [hk] at hz
      cases hz
      refine ⟨k'.queue, ?_⟩
      obtain ⟨p1, o1, pe1, q1⟩ := k'
      simp only at hp ho hpe ⊢
      subst hp; subst ho
      rcases hpe with rfl | rfl <;> simp
    · exact ⟨q, by simp only [show (0 : Nat) ≠ i from Ne.symm h0, ↓reduceIte]; exact hz⟩
  · obtain ⟨ko, h1, _⟩ := hold j kj hj
    exact hi.next.2 j ko h1
  · rcases hc j kj hj with ⟨rfl, rfl⟩ | ⟨_, hj⟩
    · obtain ⟨a, h1, h2⟩ := hi.owner j k hk hj0
      refine ⟨a, ho.trans h1, ?_⟩
      rcases hpe with e | e
      · rw [e]; exact h2
      · rw [e]; exact .inr h1
    · exact hi.owner j kj hj hj0
  · obtain ⟨ko, h1, h2⟩ := hold j kj hj
    exact hi.table j ko a h1 (h2.trans ha)
  · obtain ⟨j, kj, h1, h2⟩ := hi.found a ha
    by_cases hji : j = i
    · subst hji
      rw [hk] at h1
      cases h1
      exact ⟨j, k', by simp only [↓reduceIte], ho.trans h2⟩
    · exact ⟨j, kj, by simp only [hji, ↓reduceIte]; exact h1, h2⟩
  · obtain ⟨ko, h1, h2⟩ := hold j kj hj
    obtain ⟨ko', h1', h2'⟩ := hold l kl hl
    exact hi.one j l ko ko' a h1 h1' (h2.trans ha) (h2'.trans hb)
  · rcases hc j kj hj with ⟨rfl, rfl⟩ | ⟨_, hj⟩
    · exact hq a x (ho.symm.trans ha) hx
    · exact (hi.from' j kj a x hj ha hx).imp id (hs _)

/-- A step of the server which opens no connection. -/
theorem hostInv_close {σ ε} {P : Process σ ε} {Inv : σ → Prop} {listen : Nat} {h : Host σ} (hi : HostInv P Inv listen h) (s' : σ) (hs : Inv s')
    (hn : ∀ b, P.conn h.srv b = none → P.conn s' b = none) :
    HostInv P Inv listen { h with srv := s', sock := closeOld P s' h.sock } := by
  refine ⟨hs, ?_, ⟨hi.next.1, fun j kj hj => ?_⟩, fun j kj hj hj0 => ?_, fun j kj a hj ha => ?_, fun a ha => ?_,
    fun j l kj kl a hj hl ha hb => ?_, fun j kj a x hj ha hx => ?_⟩
  · obtain ⟨q, hz⟩ := hi.zero
    exact ⟨q, closeOld_keep hz (fun a ha => by cases ha)⟩
  · exact hi.next.2 j kj (closeOld_some hj).1
  · exact hi.owner j kj (closeOld_some hj).1 hj0
  · exact (closeOld_some hj).2 a ha
  · have ha' : (P.conn h.srv a).isSome := by
      cases hc : P.conn h.srv a with
      | some _ => rfl
      | none => rw [show P.conn s' a = none from hn a hc] at ha; cases ha
    obtain ⟨j, kj, h1, h2⟩ := hi.found a ha'
    exact ⟨j, kj, closeOld_keep h1 (fun b hb => by rw [h2] at hb; cases hb; exact ha), h2⟩
  · exact hi.one j l kj kl a (closeOld_some hj).1 (closeOld_some hl).1 ha hb
  · exact hi.from' j kj a x (closeOld_some hj).1 ha hx

/-- A step of the server which opens a connection. -/
theorem hostInv_open {σ ε} {P : Process σ ε} {Inv : σ → Prop} {listen : Nat} {h : Host σ} (hi : HostInv P Inv listen h) (s' : σ) (hs : Inv s')
    (src : Addr) (port : Nat) (h0 : P.conn h.srv src = none) (h1 : (P.conn s' src).isSome)
    (hn : ∀ b, b ≠ src → P.conn h.srv b = none → P.conn s' b = none) :
    HostInv P Inv listen { h with
      srv := s'
      sock := fun j => if j = h.next then some ⟨port, some src, none, []⟩ else closeOld P s' h.sock j
      next := h.next + 1 } := by
  have hc : ∀ j kj, (if j = h.next then some (⟨port, some src, none, []⟩ : KSock) else closeOld P s' h.sock j) = some kj →
      j = h.next ∧ kj = ⟨port, some src, none, []⟩ ∨ j ≠ h.next ∧ closeOld P s' h.sock j = some kj := by
    intro j kj hj
    split at hj
    · cases hj; exact .inl ⟨by assumption, rfl⟩
    · exact .inr ⟨by assumption, hj⟩
  have hno : ∀ j kj, closeOld P s' h.sock j = some kj → kj.owner ≠ some src := by
    intro j kj hj ho
    have := hi.table j kj src (closeOld_some hj).1 ho
    rw [h0] at this
    cases this
  refine ⟨hs, ?_, ⟨Nat.succ_pos _, fun j kj hj => ?_⟩, fun j kj hj hj0 => ?_, fun j kj a hj ha => ?_, fun a ha => ?_,
    fun j l kj kl a hj hl ha hb => ?_, fun j kj a x hj ha hx => ?_⟩
  · obtain ⟨q, hz⟩ := hi.zero
    refine ⟨q, ?_⟩
    simp only [show (0 : Nat) ≠ h.next from Nat.ne_of_lt hi.next.1, ↓reduceIte]
    exact closeOld_keep hz (fun a ha => by cases ha)
  · rcases hc j kj hj with ⟨rfl, _⟩ | ⟨_, hj⟩
    · exact Nat.lt_succ_self _
    · exact Nat.lt_succ_of_lt (hi.next.2 j kj (closeOld_some hj).1)
  · rcases hc j kj hj with ⟨_, rfl⟩ | ⟨_, hj⟩
    · exact ⟨src, rfl, .inl rfl⟩
    · exact hi.owner j kj (closeOld_some hj).1 hj0
  · rcases hc j kj hj with ⟨_, rfl⟩ | ⟨_, hj⟩
    · cases ha; exact h1
    · exact (closeOld_some hj).2 a ha
  · by_cases hb : a = src
    · subst hb
      exact ⟨h.next, ⟨port, some a, none, []⟩, by simp only [↓reduceIte], rfl⟩
    · have ha' : (P.conn h.srv a).isSome := by
        cases hc' : P.conn h.srv a with
        | some _ => rfl
        | none => rw [show P.conn s' a = none from hn a hb hc'] at ha; cases ha
      obtain ⟨j, kj, e1, e2⟩ := hi.found a ha'
      refine ⟨j, kj, ?_, e2⟩
      simp only [show j ≠ h.next from Nat.ne_of_lt (hi.next.2 j kj e1), ↓reduceIte]
      exact closeOld_keep e1 (fun b hb => by rw [e2] at hb; cases hb; exact ha)
  · rcases hc j kj hj with ⟨rfl, rfl⟩ | ⟨_, hj⟩
    · rcases hc l kl hl with ⟨rfl, rfl⟩ | ⟨_, hl⟩
      · rfl
      · cases ha; exact absurd hb (hno l kl hl)
    · rcases hc l kl hl with ⟨rfl, rfl⟩ | ⟨_, hl⟩
      · cases hb; exact absurd ha (hno j kj hj)
      · exact hi.one j l kj kl a (closeOld_some hj).1 (closeOld_some hl).1 ha hb
  · rcases hc j kj hj with ⟨_, rfl⟩ | ⟨_, hj⟩
    · cases hx
    · exact hi.from' j kj a x (closeOld_some hj).1 ha hx

/-- Every event; and what a connection is given. -/
theorem hostInv_step {σ ε} {P : Process σ ε} {Inv : σ → Prop} {listen : Nat} (hP : P.Sound Inv) {h : Host σ} (hi : HostInv P Inv listen h)
    (e : HostEv ε) (hk : Spec.Kernel P listen h e) :
    HostInv P Inv listen (P.hostStep h e).1 ∧ (∀ x ∈ h.strays, x ∈ (P.hostStep h e).1.strays) ∧
    ∀ t a dg io o, (P.hostStep h e).2 = some (P.recv t a dg io, o) → ∃ src, o = some src ∧ (src = a ∨ (a, src, dg) ∈ h.strays) := by
  cases e with
  | arrive port src dg to =>
    cases to with
    | none => exact ⟨hi, fun _ hx => hx, fun _ _ _ _ _ hx => (by cases hx)⟩
    | some i =>
      obtain ⟨k, h1, hpo, h2⟩ := hk i rfl
      simp only [Process.hostStep, h1]
      refine ⟨hostInv_change hi i k { k with queue := k.queue ++ [(src, dg)] } h1 rfl rfl (.inl rfl) _ ?_ ?_, ?_, fun _ _ _ _ _ hx => (by cases hx)⟩
      · intro x hx
        split
        · exact List.mem_cons_of_mem _ hx
        · exact hx
      · intro a x ha hx
        rcases List.mem_append.mp hx with hx | hx
        · rcases hi.from' i k a x h1 ha hx with h3 | h3
          · exact .inl h3
          · right
            split
            · exact List.mem_cons_of_mem _ h3
            · exact h3
        · simp only [List.mem_singleton] at hx
          subst hx
          have hi0 : i ≠ 0 := by
            rintro rfl
            obtain ⟨q, hz⟩ := hi.zero
            rw [h1] at hz
            cases hz
            cases ha
          obtain ⟨b, hb, hpe⟩ := hi.owner i k h1 hi0
          rw [ha] at hb
          cases hb
          rcases hpe with hpe | hpe
          · right
            simp only [ha, hpe]
            exact List.mem_cons_self ..
          · left
            rcases h2 with h2 | ⟨h2, _⟩
            · rw [hpe] at h2; cases h2; rfl
            · rw [hpe] at h2; cases h2
      · intro x hx
        split
        · exact List.mem_cons_of_mem _ hx
        · exact hx
  | connect i =>
    simp only [Process.hostStep]
    cases h1 : h.sock i with
    | none => exact ⟨hi, fun _ hx => hx, fun _ _ _ _ _ hx => (by cases hx)⟩
    | some k =>
      exact ⟨hostInv_change hi i k { k with peer := k.owner } h1 rfl rfl (.inr rfl) h.strays (fun _ hx => hx) (fun a x ha hx => hi.from' i k a x h1 ha hx),
        fun _ hx => hx, fun _ _ _ _ _ hx => (by cases hx)⟩
  | other e =>
    refine ⟨hostInv_close hi _ (hP.keep _ _ hi.srv) (fun b hb => hP.other _ _ b hi.srv hk.1 hb), fun _ hx => hx,
      fun t a dg io o hx => ?_⟩
    simp only [Process.hostStep, Option.some.injEq, Prod.mk.injEq] at hx
    exact absurd hx.1 (hk.2 t a dg io)
  | main t io port =>
    simp only [Process.hostStep]
    obtain ⟨q, hz⟩ := hi.zero
    rw [hz]
    cases q with
    | nil => exact ⟨hi, fun _ hx => hx, fun _ _ _ _ _ hx => (by cases hx)⟩
    | cons x rest =>
      obtain ⟨src, dg⟩ := x
      have h1 := hostInv_change hi 0 _ ⟨listen, none, none, rest⟩ hz rfl rfl (.inl rfl) h.strays (fun _ hx => hx)
        (fun a x ha hx => by cases ha)
      have hno : ∀ t' a dg' io' s', some (P.main t src dg io, some src) = some (P.recv t' a dg' io', s') →
          ∃ src, s' = some src ∧ (src = a ∨ (a, src, dg') ∈ h.strays) := by
        intro t' a dg' io' s' hx
        simp only [Option.some.injEq, Prod.mk.injEq] at hx
        exact absurd hx.1.symm (hP.recv _ _ _ _ _ _ _ _)
      simp only
      split
      · rename_i hc
        have h2 := hostInv_open h1 (P.step h.srv (P.main t src dg io)) (hP.keep _ _ hi.srv) src port
          (by simpa using hc.1) hc.2 (fun b hb hn => hP.main _ _ _ _ _ b hi.srv hb hn)
        exact ⟨h2, fun _ hx => hx, hno⟩
      · rename_i hc
        have h2 := hostInv_close h1 (P.step h.srv (P.main t src dg io)) (hP.keep _ _ hi.srv) (fun b hn => by
          by_cases hb : b = src
          · subst hb
            have hn' : P.conn h.srv b = none := hn
            cases h3 : P.conn (P.step h.srv (P.main t b dg io)) b with
            | none => rfl
            | some c => exact absurd ⟨by rw [hn']; rfl, by rw [h3]; rfl⟩ hc
          · exact hP.main _ _ _ _ _ b hi.srv hb hn)
        exact ⟨h2, fun _ hx => hx, hno⟩
  | recv i t io =>
    simp only [Process.hostStep]
    cases h1 : h.sock i with
    | none => exact ⟨hi, fun _ hx => hx, fun _ _ _ _ _ hx => (by cases hx)⟩
    | some k =>
      obtain ⟨p, o, pe, q⟩ := k
      simp only
      cases o with
      | none => exact ⟨hi, fun _ hx => hx, fun _ _ _ _ _ hx => (by cases hx)⟩
      | some a =>
        cases pe with
        | none => exact ⟨hi, fun _ hx => hx, fun _ _ _ _ _ hx => (by cases hx)⟩
        | some b =>
          cases q with
          | nil => exact ⟨hi, fun _ hx => hx, fun _ _ _ _ _ hx => (by cases hx)⟩
          | cons x rest =>
            obtain ⟨src, dg⟩ := x
            simp only
            have h2 := hostInv_change hi i _ ⟨p, some a, some b, rest⟩ h1 rfl rfl (.inl rfl) h.strays (fun _ hx => hx)
              (fun a' x ha hx => hi.from' i _ a' x h1 ha (List.mem_cons_of_mem _ hx))
            refine ⟨hostInv_close h2 (P.step h.srv (P.recv t a dg io)) (hP.keep _ _ hi.srv)
              (fun c hc => hP.other _ _ c hi.srv (fun _ _ _ _ => hP.recv _ _ _ _ _ _ _ _) hc), fun _ hx => hx, ?_⟩
            intro t' a' dg' io' s' hx
            simp only [Option.some.injEq, Prod.mk.injEq] at hx
            obtain ⟨hx, rfl⟩ := hx
            obtain ⟨rfl, rfl⟩ := hP.inj _ _ _ _ _ _ _ _ hx
            exact ⟨src, rfl, hi.from' i _ a (src, dg) h1 rfl (List.mem_cons_self ..)⟩

theorem hostRun_inv {σ ε} {P : Process σ ε} {Inv : σ → Prop} {s0 : σ} {listen : Nat} (hP : P.Sound Inv) (hs : Inv s0)
    (h0 : ∀ a, P.conn s0 a = none) {h : Host σ} {es : List (ε × Option Addr)} (hr : Spec.HostRun P s0 listen h es) :
    HostInv P Inv listen h ∧ ∀ t a dg io o, (P.recv t a dg io, o) ∈ es → ∃ src, o = some src ∧ (src = a ∨ (a, src, dg) ∈ h.strays) := by
  induction hr with
  | init => exact ⟨hostInv_init listen hs h0, fun _ _ _ _ _ hx => (by cases hx)⟩
  | step h es e hr hk ih =>
    obtain ⟨ih1, ih2⟩ := ih
    obtain ⟨h1, h2, h3⟩ := hostInv_step hP ih1 e hk
    refine ⟨h1, fun t a dg io o hx => ?_⟩
    rcases List.mem_append.mp hx with hx | hx
    · obtain ⟨src, e1, e2⟩ := ih2 t a dg io o hx
      exact ⟨src, e1, e2.imp id (h2 _)⟩
    · obtain ⟨src, e1, e2⟩ := h3 t a dg io o (by simpa [Option.mem_toList] using hx)
      exact ⟨src, e1, e2.imp id (h2 _)⟩

/-- The server's state is what its recorded events make of it. -/
theorem hostRun_srv {σ ε} {P : Process σ ε} {s0 : σ} {listen : Nat} {h : Host σ} {es : List (ε × Option Addr)}
    (hr : Spec.HostRun P s0 listen h es) : h.srv = (es.map (·.1)).foldl P.step s0 := by
  induction hr with
  | init => rfl
  | step h es e hr hk ih =>
    rw [List.map_append, List.foldl_append, ← ih]
    cases e with
    | arrive port src dg to =>
      cases to with
      | none => rfl
      | some i => simp only [Process.hostStep]; cases h.sock i <;> rfl
    | connect i => simp only [Process.hostStep]; cases h.sock i <;> rfl
    | other e => rfl
    | main t io port =>
      simp only [Process.hostStep]
      cases h.sock 0 with
      | none => rfl
      | some k =>
        obtain ⟨p, o, pe, q⟩ := k
        cases q with
        | nil => rfl
        | cons x r => simp only; split <;> rfl
    | recv i t io =>
      simp only [Process.hostStep]
      cases h.sock i with
      | none => rfl
      | some k =>
        obtain ⟨p, o, pe, q⟩ := k
        cases o <;> cases pe <;> cases q <;> rfl

/-- The connected socket of a client is the only one which gets what this client sends to its port. -/
theorem takes_one {σ ε} {P : Process σ ε} {Inv : σ → Prop} {listen : Nat} {h : Host σ} (hi : HostInv P Inv listen h) {i j : Nat} {k : KSock}
    {a : Addr} (hk : h.sock i = some k) (ho : k.owner = some a) (hp : k.peer.isSome) (ht : Spec.Takes h j k.port a) : j = i := by
  have hi0 : i ≠ 0 := by
    rintro rfl
    obtain ⟨q, hz⟩ := hi.zero
    rw [hk] at hz
    cases hz
    cases ho
  have hpe : k.peer = some a := by
    obtain ⟨b, hb, h1⟩ := hi.owner i k hk hi0
    rw [ho] at hb
    cases hb
    rcases h1 with h1 | h1
    · rw [h1] at hp; cases hp
    · exact h1
  obtain ⟨k', hk', hpo, h1 | ⟨_, h1⟩⟩ := ht
  · have hj0 : j ≠ 0 := by
      rintro rfl
      obtain ⟨q, hz⟩ := hi.zero
      rw [hk'] at hz
      cases hz
      cases h1
    obtain ⟨b, hb, h2⟩ := hi.owner j k' hk' hj0
    rcases h2 with h2 | h2
    · rw [h2] at h1; cases h1
    · rw [h2] at h1
      cases h1
      exact hi.one j i k' k a hk' hk hb ho
  · exact absurd hpe (h1 i k hk rfl)

/-! ### The two servers -/

/-- Without a first packet there is no connection. -/
theorem life_none {S} (v : Srv S) (stops : Bool) (es : List LifeEv) (h : ∀ e ∈ es, ∀ t dg io, e ≠ .start t dg io) :
    (v.lifeRun stops none es).1 = none := by
  induction es with
  | nil => rfl
  | cons e r ih =>
    have h1 : (v.lifeStep stops none e).1 = none := by
      cases e with
      | start t dg io => exact absurd rfl (h _ (List.mem_cons_self ..) t dg io)
      | recv => rfl
      | tick => rfl
      | check => rfl
      | drop => rfl
    simp only [Srv.lifeRun, h1]
    exact ih fun e he => h e (List.mem_cons_of_mem _ he)

theorem process_sound {S} (v : Srv S) : v.process.Sound (fun s => s.addrs.Nodup) where
  keep s e hs := by
    rcases step_addrs v s e with h | ⟨a, h1, _, h3⟩
    · exact h.nodup hs
    · exact h3.nodup_iff.mpr (List.nodup_cons.mpr ⟨h1, hs⟩)
  main s t a dg io b hs hb hn := by
    obtain ⟨es, h1, h2⟩ := c50_single_thread_step v s hs (.main t a dg io) b
    have h3 := congrArg Prod.fst h2
    rw [show s.conn b = none from hn] at h3
    refine h3.symm.trans (life_none v _ es ?_)
    cases h1 with
    | main => exact absurd rfl hb
    | ignored => exact fun _ he => (by cases he)
  other s e b hs he hn := by
    obtain ⟨es, h1, h2⟩ := c50_single_thread_step v s hs e b
    have h3 := congrArg Prod.fst h2
    rw [show s.conn b = none from hn] at h3
    refine h3.symm.trans (life_none v _ es ?_)
    cases h1 with
    | purge => intro e he; simp only [List.mem_singleton] at he; subst he; exact fun _ _ _ h => by cases h
    | round t io n => intro e he; rw [(List.mem_replicate.mp he).2]; exact fun _ _ _ h => by cases h
    | own => intro e he; simp only [List.mem_singleton] at he; subst he; exact fun _ _ _ h => by cases h
    | other => exact fun _ he => (by cases he)
    | main t dg io => exact absurd rfl (he t b dg io)
    | ignored => exact fun _ he => (by cases he)
  recv := fun _ _ _ _ _ _ _ _ h => by cases h
  inj := fun _ _ _ _ _ _ _ _ h => by cases h; exact ⟨rfl, rfl⟩

theorem mprocess_sound {S} (v : Srv S) : v.mprocess.Sound MSt.Ok where
  keep s e hs := mstep_ok v s e hs
  main s t a dg io b hs hb hn := by
    obtain ⟨es, h1, h2⟩ := c50_multi_thread_step v s hs (.main t a dg io) b
    have h3 := congrArg Prod.fst h2
    rw [show s.conn b = none from hn] at h3
    refine h3.symm.trans (life_none v _ es ?_)
    cases h1 with
    | main => exact absurd rfl hb
    | ignored => exact fun _ he => (by cases he)
  other s e b hs he hn := by
    obtain ⟨es, h1, h2⟩ := c50_multi_thread_step v s hs e b
    have h3 := congrArg Prod.fst h2
    rw [show s.conn b = none from hn] at h3
    refine h3.symm.trans (life_none v _ es ?_)
    cases h1 with
    | main t dg io => exact absurd rfl (he t b dg io)
    | thread e pc =>
      intro f hf t dg io
      rintro rfl
      cases e <;> cases pc <;> simp [ThreadEv.life] at hf
    | _ => exact fun _ he => (by cases he)
  recv := fun _ _ _ _ _ _ _ _ h => by cases h
  inj := fun _ _ _ _ _ _ _ _ h => by cases h; exact ⟨rfl, rfl⟩

/-! ### C86 -/

theorem mrun_foldl {S} (v : Srv S) (s : MSt) (es : List MEv) : (v.mrun s es).1 = es.foldl (fun s e => (v.mstep s e).1) s := by
  induction es generalizing s with
  | nil => rfl
  | cons e r ih => exact ih _

theorem host_delivery {σ ε} {P : Process σ ε} {Inv : σ → Prop} {listen : Nat} {h : Host σ} (hi : HostInv P Inv listen h) (a : Addr)
    (ha : (P.conn h.srv a).isSome) :
    ∃ i k, h.sock i = some k ∧ k.owner = some a ∧ (∀ j k', h.sock j = some k' → k'.owner = some a → j = i) ∧
      (k.peer.isSome → ∀ j, Spec.Takes h j k.port a ↔ j = i) := by
  obtain ⟨i, k, h1, h2⟩ := hi.found a ha
  refine ⟨i, k, h1, h2, fun j k' h3 h4 => hi.one j i k' k a h3 h1 h4 h2, fun hp j => ⟨takes_one hi h1 h2 hp, ?_⟩⟩
  rintro rfl
  have hi0 : j ≠ 0 := by
    rintro rfl
    obtain ⟨q, hz⟩ := hi.zero
    rw [h1] at hz
    cases hz
    cases h2
  obtain ⟨b, hb, h3⟩ := hi.owner j k h1 hi0
  rw [h2] at hb
  cases hb
  rcases h3 with h3 | h3
  · rw [h3] at hp; cases hp
  · exact ⟨k, h1, rfl, .inl h3⟩

/-- **C86** (single threaded server), partial: in every history of the server and its sockets, whatever datagrams arrive, from whatever addresses and
whichever of the possible sockets the kernel chooses: a datagram which is handled as `a`'s came from `a`, or it arrived while the socket of
`a`'s connection was bound but not connected. Missing: the last case, which really happens (`Toy.c86_stolen`). -/
theorem c86_single_thread_partial {S} (v : Srv S) (listen : Nat) {h : Host SrvSt} {es : List (SrvEv × Option Addr)}
    (hr : Spec.HostRun v.process ⟨[], 0⟩ listen h es) :
    h.srv = v.run ⟨[], 0⟩ (es.map (·.1)) ∧
    ∀ t a dg io o, (SrvEv.client t a dg io, o) ∈ es → o = some a ∨ ∃ src, o = some src ∧ (a, src, dg) ∈ h.strays := by
  refine ⟨hostRun_srv hr, fun t a dg io o he => ?_⟩
  obtain ⟨src, h1, h2⟩ := (hostRun_inv (s0 := (⟨[], 0⟩ : SrvSt)) (process_sound v) (show (SrvSt.addrs ⟨[], 0⟩).Nodup from List.nodup_nil) (fun _ => rfl) hr).2 t a dg io o he
  rcases h2 with rfl | h2
  · exact .inl h1
  · exact .inr ⟨src, h1, h2⟩

/-- **C86** (multi threaded server), partial. -/
theorem c86_multi_thread_partial {S} (v : Srv S) (listen : Nat) {h : Host MSt} {es : List (MEv × Option Addr)}
    (hr : Spec.HostRun v.mprocess .init listen h es) :
    h.srv = (v.mrun .init (es.map (·.1))).1 ∧
    ∀ a t dg io o, (MEv.thread a (.dgram t dg io), o) ∈ es → o = some a ∨ ∃ src, o = some src ∧ (a, src, dg) ∈ h.strays := by
  refine ⟨(hostRun_srv hr).trans (mrun_foldl v _ _).symm, fun a t dg io o he => ?_⟩
  obtain ⟨src, h1, h2⟩ := (hostRun_inv (s0 := MSt.init) (mprocess_sound v) ⟨List.nodup_nil, fun _ hx => (by cases hx)⟩ (fun _ => rfl) hr).2 t a dg io o he
  rcases h2 with rfl | h2
  · exact .inl h1
  · exact .inr ⟨src, h1, h2⟩

/-- **C86** (delivery, single threaded server): a connection has one socket; and when it is connected, every datagram from its client to its port is given
to this socket: not to the main socket and to no socket of another connection, connected or not. -/
theorem c86_single_thread_delivery {S} (v : Srv S) (listen : Nat) {h : Host SrvSt} {es : List (SrvEv × Option Addr)}
    (hr : Spec.HostRun v.process ⟨[], 0⟩ listen h es) (a : Addr) (ha : (h.srv.conn a).isSome) :
    ∃ i k, h.sock i = some k ∧ k.owner = some a ∧ (∀ j k', h.sock j = some k' → k'.owner = some a → j = i) ∧
      (k.peer.isSome → ∀ j, Spec.Takes h j k.port a ↔ j = i) := by
  exact host_delivery (hostRun_inv (s0 := (⟨[], 0⟩ : SrvSt)) (process_sound v) (show (SrvSt.addrs ⟨[], 0⟩).Nodup from List.nodup_nil) (fun _ => rfl) hr).1 a ha

/-- **C86** (delivery, multi threaded server). -/
theorem c86_multi_thread_delivery {S} (v : Srv S) (listen : Nat) {h : Host MSt} {es : List (MEv × Option Addr)}
    (hr : Spec.HostRun v.mprocess .init listen h es) (a : Addr) (ha : (h.srv.conn a).isSome) :
    ∃ i k, h.sock i = some k ∧ k.owner = some a ∧ (∀ j k', h.sock j = some k' → k'.owner = some a → j = i) ∧
      (k.peer.isSome → ∀ j, Spec.Takes h j k.port a ↔ j = i) :=
  host_delivery (hostRun_inv (s0 := MSt.init) (mprocess_sound v) ⟨List.nodup_nil, fun _ hx => (by cases hx)⟩ (fun _ => rfl) hr).1 a ha

end Tftp

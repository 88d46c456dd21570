import Verif.ClientRetry
/-
C30: datagrams which do not come from the server's address.
-/
namespace Tftp

/-- Specification: the address of the server a client in the transfer phase talks to. -/
def Spec.server : CliSt → Option Ep
  | .up _ _ ep _ _ _ => some ep
  | .down _ _ ep _ _ _ => some ep
  | .query _ => none
  | .done _ _ => none

/-- Specification: datagrams are not encrypted in the transfer. -/
def Spec.PlainTransfer : CliSt → Prop
  | .up c _ _ _ _ _ => ∀ d, (c.codec.dec d).isSome
  | .down c _ _ _ _ _ => ∀ d, (c.codec.dec d).isSome
  | .query _ => False
  | .done _ _ => True

/-- Specification: the same iteration with nothing arriving (and no time passing) instead of a datagram which is not from `ep`. -/
def Spec.hush (ep : Ep) (i : CliIn) : CliIn :=
  match i.recv with
  | .dgram src _ => if src = ep then i else { i with recv := .wouldBlock, t := 0 }
  | _ => i

theorem up_hush {S} (v : Cli S) (c room ep s since auth) (i : CliIn) (hp : ∀ d, (c.codec.dec d).isSome) :
    v.upStep c room ep s since auth i = v.upStep c room ep s since auth (Spec.hush ep i) := by
  unfold Spec.hush
  cases hr : i.recv with
  | wouldBlock => rfl
  | error => rfl
  | dgram src d =>
    simp only
    split
    · rfl
    · rename_i hne
      have h0 : ¬ (0 - since > v.cfg.requestTimeout) := by omega
      have hd : (c.codec.dec (d.take room)).isNone = false := by
        have := hp (d.take room)
        cases hc : c.codec.dec (d.take room) <;> simp_all
      simp only [Cli.upStep, hr, hd, if_neg h0, if_pos hne, Bool.false_eq_true, if_false]

theorem down_hush {S} (v : Cli S) (c room ep s since auth) (i : CliIn) (hp : ∀ d, (c.codec.dec d).isSome) :
    v.downStep c room ep s since auth i = v.downStep c room ep s since auth (Spec.hush ep i) := by
  unfold Spec.hush
  cases hr : i.recv with
  | wouldBlock => rfl
  | error => rfl
  | dgram src d =>
    simp only
    split
    · rfl
    · rename_i hne
      have h0 : ¬ (0 - since > v.cfg.requestTimeout) := by omega
      have hd : (c.codec.dec (d.take room)).isNone = false := by
        have := hp (d.take room)
        cases hc : c.codec.dec (d.take room) <;> simp_all
      simp only [Cli.downStep, hr, hd, if_neg h0, if_pos hne, Bool.false_eq_true, if_false]

/-- A transfer state stays one (with the same server and codec) or ends. -/
theorem step_transfer {S} (v : Cli S) (j : Job) (s : CliSt) (i : CliIn) (ep : Ep) (hs : Spec.server s = some ep) (hp : Spec.PlainTransfer s) :
    Spec.PlainTransfer (v.step j s i).1 ∧ (Spec.server (v.step j s i).1 = some ep ∨ ∃ r f, (v.step j s i).1 = .done r f) := by
  cases s with
  | query q => cases hs
  | done r f => cases hs
  | up c room ep' s since auth =>
    cases hs
    simp only [Cli.step, Cli.upStep]
    repeat' split
    all_goals first | exact ⟨trivial, .inr ⟨_, _, rfl⟩⟩ | exact ⟨hp, .inl rfl⟩
  | down c room ep' s since auth =>
    cases hs
    simp only [Cli.step, Cli.downStep]
    repeat' split
    all_goals first | exact ⟨trivial, .inr ⟨_, _, rfl⟩⟩ | exact ⟨hp, .inl rfl⟩

/-- **C30** (partial): in a transfer without encryption, datagrams from other addresses change nothing: the client ends up in the
same state (result, written file) and sends the same datagrams as if, instead of each of them, nothing had arrived. Missing:
encrypted transfers (`c30_foreign_aborts_encrypted`), the handshake (`c30_handshake_room`, `c30_other_port_aborts`) and the
timeout (a loop in which they arrive does not look at the clock: `c31_foreign_blocks_timeout`, `c30_foreign_blocks_timeout`). -/
theorem c30_foreign_ignored_partial {S} (v : Cli S) (j : Job) (s : CliSt) (ep : Ep) (hs : Spec.server s = some ep)
    (hp : Spec.PlainTransfer s) (is : List CliIn) :
    v.runFrom j s is = v.runFrom j s (is.map (Spec.hush ep)) := by
  induction is generalizing s with
  | nil => rfl
  | cons i is ih =>
    have e : v.step j s i = v.step j s (Spec.hush ep i) := by
      cases s with
      | query q => cases hs
      | done r f => cases hs
      | up c room ep' s since auth => cases hs; exact up_hush v c room _ s since auth i hp
      | down c room ep' s since auth => cases hs; exact down_hush v c room _ s since auth i hp
    simp only [List.map_cons, Cli.runFrom, ← e]
    obtain ⟨h1, h2 | ⟨r, f, h2⟩⟩ := step_transfer v j s i ep hs hp
    · rw [ih _ h2 h1]
    · rw [h2, runFrom_done, runFrom_done]

/-- **C30**, finding: in an encrypted transfer a datagram from anywhere which does not decrypt ends the transfer with an error:
src/client/encryption_socket.rs:73-88 decrypts before src/client/sender.rs:264-267 looks at the source. -/
theorem c30_foreign_aborts_encrypted {S} (v : Cli S) (j : Job) (c : Cfg) (room : Nat) (ep src : Ep) (s : RecvSt) (since : Nat)
    (auth : Option Bytes) (d : Bytes) (hd : c.codec.dec (d.take room) = none) (i : CliIn) (hi : i.recv = .dgram src d) :
    v.step j (.down c room ep s since auth) i = (.done (.error .io) s.w.out, []) := by
  simp [Cli.step, Cli.downStep, hi, hd]

/-- A datagram shorter than tag and nonce never decrypts at levels `protocol` and `full`: the finding applies to every encrypted
transfer of these levels. -/
theorem c30_short_does_not_decrypt (A : Aead) (l : Level) (hl : l = .protocol ∨ l = .full) (lim : Nat) (nonce hn) (d : Bytes)
    (h : d.length < 40) : (Codec.level A l lim nonce hn).dec d = none := by
  have hp : openPacket A d = .err ∨ openPacket A d = .panic := by
    unfold openPacket decrypt
    cases h1 : rsliceToArray 24 d 0 with
    | none => left; rfl
    | some n =>
      cases h2 : rsliceToArray 16 d 24 with
      | none => left; rfl
      | some t =>
        exfalso
        unfold rsliceToArray at h2
        split at h2
        · omega
        · cases h2
  rcases hl with rfl | rfl <;> rcases hp with hp | hp <;> simp [Codec.level, unprotect, hp]

/-- **C30**, finding: a loop in which datagrams from elsewhere arrive does not look at the clock, so the client never times out. -/
theorem c30_foreign_blocks_timeout {S} (v : Cli S) (j : Job) (c : Cfg) (room : Nat) (ep : Ep) (s : RecvSt) (since : Nat)
    (auth : Option Bytes) (hp : ∀ d, (c.codec.dec d).isSome) (is : List CliIn)
    (hf : ∀ i ∈ is, ∃ src d, i.recv = .dgram src d ∧ src ≠ ep) :
    v.runFrom j (.down c room ep s since auth) is = (.down c room ep s since auth, []) := by
  induction is with
  | nil => rfl
  | cons i is ih =>
    obtain ⟨src, d, hr, hne⟩ := hf i List.mem_cons_self
    have hd : (c.codec.dec (d.take room)).isNone = false := by
      have := hp (d.take room)
      cases hc : c.codec.dec (d.take room) <;> simp_all
    simp only [Cli.runFrom, Cli.step, Cli.downStep, hr, hd, if_pos hne, Bool.false_eq_true, if_false]
    rw [ih fun x hx => hf x (List.mem_cons_of_mem _ hx)]
    rfl

/-- **C30**: in an unencrypted handshake, a datagram from another host has no effect except that it takes room: the rest of the
handshake can receive only datagrams which are not longer than it. -/
theorem c30_handshake_room {S} (v : Cli S) (j : Job) (hplain : (v.initialSock j.opts).1.enc = none) (q : Query) (i : CliIn) (src : Ep)
    (d : Bytes) (hr : i.recv = .dgram src d) (hne : src.ip ≠ v.cfg.endpoint.ip) (hok : i.sendOk = true) :
    v.step j (.query q) i =
      (.query { q with room := min q.room d.length }, [(v.cfg.endpoint, (j.request q.exts).toBytes)]) := by
  have hsend : (v.initialSock j.opts).1.send (v.nonce i.nonce) (j.request q.exts).toBytes = .ok (j.request q.exts).toBytes := by
    unfold Sock.send
    rw [hplain]
    split <;> simp_all
  have hput : v.put (v.initialSock j.opts).1 i.nonce i.sendOk (j.request q.exts) = some (j.request q.exts).toBytes := by
    unfold Cli.put
    rw [hsend, hok]
    rfl
  have hrecv : ∀ b, (v.initialSock j.opts).1.recv b = some b := by intro b; unfold Sock.recv; rw [hplain]
  simp only [Cli.step, Cli.queryStep, hput, hr, hrecv, if_pos hne, List.length_take]

/-- **C30**, finding: after an empty datagram from another host during the handshake, every reply of the server is cut to nothing
and the client fails with "invalid packet". -/
theorem c30_empty_datagram_breaks_handshake {S} (v : Cli S) (j : Job) (hplain : (v.initialSock j.opts).1.enc = none) (q : Query)
    (i i' : CliIn) (src : Ep) (hr : i.recv = .dgram src []) (hne : src.ip ≠ v.cfg.endpoint.ip) (hok : i.sendOk = true)
    (reply : Bytes) (hr' : i'.recv = .dgram v.cfg.endpoint reply) (hok' : i'.sendOk = true) :
    (v.runFrom j (.query q) [i, i']).1 = .done (.error .invalid) [] := by
  have h1 := c30_handshake_room v j hplain q i src [] hr hne hok
  have hsend : ∀ e, (v.initialSock j.opts).1.send (v.nonce i'.nonce) (j.request e).toBytes = .ok (j.request e).toBytes := by
    intro e
    unfold Sock.send
    rw [hplain]
    split <;> simp_all
  have hput : ∀ e, v.put (v.initialSock j.opts).1 i'.nonce i'.sendOk (j.request e) = some (j.request e).toBytes := by
    intro e
    unfold Cli.put
    rw [hsend, hok']
    rfl
  have hrecv : ∀ b, (v.initialSock j.opts).1.recv b = some b := by intro b; unfold Sock.recv; rw [hplain]
  simp only [Cli.runFrom]
  rw [h1]
  simp only [Cli.step, Cli.queryStep, hput, hr', hrecv, List.length_nil, Nat.min_zero, List.take_zero]
  have hb : Packet.fromBytes [] = .error .invalid := rfl
  simp [Cli.reply, hb]

/-- **C30**, finding: with a fixed server port, one datagram from another port of the server's host ends the handshake. -/
theorem c30_other_port_aborts {S} (v : Cli S) (j : Job) (hplain : (v.initialSock j.opts).1.enc = none) (q : Query) (i : CliIn) (src : Ep)
    (d : Bytes) (hr : i.recv = .dgram src d) (hip : src.ip = v.cfg.endpoint.ip) (hne : src ≠ v.cfg.endpoint)
    (hfix : v.cfg.allowPortChange = false) (hok : i.sendOk = true) : (v.step j (.query q) i).1 = .done (.error .invalid) [] := by
  have hsend : (v.initialSock j.opts).1.send (v.nonce i.nonce) (j.request q.exts).toBytes = .ok (j.request q.exts).toBytes := by
    unfold Sock.send
    rw [hplain]
    split <;> simp_all
  have hput : v.put (v.initialSock j.opts).1 i.nonce i.sendOk (j.request q.exts) = some (j.request q.exts).toBytes := by
    unfold Cli.put
    rw [hsend, hok]
    rfl
  have hrecv : ∀ b, (v.initialSock j.opts).1.recv b = some b := by intro b; unfold Sock.recv; rw [hplain]
  simp only [Cli.step, Cli.queryStep, hput, hr, hrecv, hip, ne_eq, not_true_eq_false, if_false]
  rw [if_pos ⟨hne, hfix⟩]

end Tftp

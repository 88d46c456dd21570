import Verif.Server
import Verif.NegotiateProps
import Verif.ServerTable
import Verif.Sizes
/-
Which datagrams create a transfer at the server, and what is answered otherwise: C16, C19, C23 for whole connections, C24
(required full encryption) and C41 (silence towards unauthorized peers).
-/
namespace Tftp

/-- Handshake level of a datagram: `full` if it opens under the server's key. -/
def Srv.arrived {S} (v : Srv S) (dg : Bytes) : Level := if (v.openRequest dg).1.isSome then .full else .none

/-- The request in a datagram, with the handshake encryption removed if there is one. -/
def Srv.requestOf {S} (v : Srv S) (dg : Bytes) : Option (Bool × Request) :=
  match Packet.fromBytes (v.openRequest dg).2 with
  | .ok (.write r) => some (true, r)
  | .ok (.read r) => some (false, r)
  | _ => none

/-- The messages from the main socket: only refusals are answered there. -/
theorem newConn_replies {S} (v : Srv S) (t : Nat) (dg : Bytes) (io : NewIo) :
    (∀ y, (v.newConn t dg io).result = .ok y → (v.newConn t dg io).replies = []) ∧
    (v.cfg.errorToAuthorizedOnly = true → ∀ x, (v.newConn t dg io).result = .error x → x ≠ .size → x ≠ .name →
      (v.newConn t dg io).replies = []) := by
  have hr : v.cfg.errorToAuthorizedOnly = true → ∀ hs o n c, v.replyError hs o n c = [] := by
    intro h hs o n c
    unfold Srv.replyError
    rw [if_pos h]
  generalize hn : v.newConn t dg io = res
  unfold Srv.newConn at hn
  simp only at hn
  repeat' split at hn
  all_goals
    subst hn
    refine ⟨?_, ?_⟩
    · intro y h
      first | rfl | cases h
    · intro hc x h hx1 hx2
      have h' : ∀ z, Except.error (ε := Refusal) (α := Conn × List Bytes) z = .error x → z = x := fun z h => Except.error.inj h
      first
        | cases h; done
        | exact absurd (h' _ h).symm hx1
        | exact absurd (h' _ h).symm hx2
        | (dsimp only; rw [hr hc]; done)
        | rfl

/-- Everything known about a new connection. -/
theorem newConn_ok {S} {v : Srv S} {t : Nat} {dg : Bytes} {io : NewIo} {c : Conn} {out : List Bytes}
    (h : (v.newConn t dg io).result = .ok (c, out)) :
    ∃ write r used keys name kind,
      v.requestOf dg = some (write, r) ∧
      srvNegotiate v.cfg io.sessionPub (v.arrived dg) r.exts kind = .ok (used, c.opts, keys) ∧
      normalizeName r.fileName = some name ∧
      c.enc = (match keys with | some k => some (v.session k) | none => (v.openRequest dg).1) ∧
      (if write then io.openWrite name = true ∧ kind = .write ∧ c.side = .writer ⟨Writer.new, 0, 0, false, false⟩
       else ∃ size file, io.openRead name = some (size, file) ∧ kind = .read size ∧
          c.side = .reader ⟨Reader.new (v.kind c.opts.window) file c.opts.payload c.opts.window, 0, false, false⟩) ∧
      c.lastUpdated = t ∧ c.lastSent = t ∧ c.mult = 1 ∧ (v.newConn t dg io).replies = [] ∧
      (if used.isEmpty then
        if write then ∃ d, (v.transfer { c with enc := (v.openRequest dg).1 }).codec.enc io.nonce (Packet.ack 0).toBytes = some d ∧ out = [d]
        else out = []
       else ∃ d, (v.transfer { c with enc := (v.openRequest dg).1 }).codec.enc io.nonce (Packet.optionalAck used).toBytes = some d ∧ out = [d]) := by
  have acc : ∀ {o : Opts} {side : Side} {write : Bool} {used : Exts} {keys : Option SessionKeys} {y : Conn × List Bytes},
      v.accept ⟨o, (v.openRequest dg).1, side, t, t, 1⟩ write used keys io = some y → y = (c, out) →
      c.opts = o ∧ c.side = side ∧ c.lastUpdated = t ∧ c.lastSent = t ∧ c.mult = 1 ∧
      c.enc = (match keys with | some k => some (v.session k) | none => (v.openRequest dg).1) ∧
      (if used.isEmpty then
        if write then ∃ d, (v.transfer { c with enc := (v.openRequest dg).1 }).codec.enc io.nonce (Packet.ack 0).toBytes = some d ∧ out = [d]
        else out = []
       else ∃ d, (v.transfer { c with enc := (v.openRequest dg).1 }).codec.enc io.nonce (Packet.optionalAck used).toBytes = some d ∧ out = [d]) := by
    intro o side write used keys y hy he
    subst he
    unfold Srv.accept at hy
    simp only at hy
    have aux : ∀ (p : Packet) , (if io.sendOk = true then
        ((v.transfer ⟨o, (v.openRequest dg).1, side, t, t, 1⟩).codec.enc io.nonce p.toBytes).map ([·]) else none) = some out →
        ∃ d, (v.transfer ⟨o, (v.openRequest dg).1, side, t, t, 1⟩).codec.enc io.nonce p.toBytes = some d ∧ out = [d] := by
      intro p hp
      split at hp
      · simp only [Option.map_eq_some_iff] at hp
        obtain ⟨d, h1, h2⟩ := hp
        exact ⟨d, h1, h2.symm⟩
      · cases hp
    simp only [Option.map_eq_some_iff] at hy
    obtain ⟨out', h1, h2⟩ := hy
    simp only [Prod.mk.injEq] at h2
    obtain ⟨rfl, rfl⟩ := h2
    refine ⟨rfl, rfl, rfl, rfl, rfl, rfl, ?_⟩
    split at h1
    · rename_i hu
      rw [if_pos hu]
      split at h1
      · rename_i hw; rw [if_pos hw]; exact aux _ h1
      · rename_i hw; rw [if_neg hw]; simpa using h1.symm
    · rename_i hu
      rw [if_neg hu]
      exact aux _ h1
  have hrep := (newConn_replies v t dg io).1 _ h
  revert hrep
  generalize (v.newConn t dg io).replies = rep
  intro hrep
  unfold Srv.newConn at h
  unfold Srv.requestOf
  simp only at h
  split at h <;> rename_i hp
  · rename_i r
    rw [hp]
    simp only at h ⊢
    split at h
    · cases h
    · rename_i used o keys hs
      split at h
      · cases h
      · rename_i hz
        split at h
        · cases h
        · rename_i name hn
          simp only [if_true] at h
          split at h
          · rename_i hw
            split at h
            · rename_i hso
              split at h
              · rename_i y hy
                simp only [Except.ok.injEq] at h
                obtain ⟨h1, h2, h3, h4, h5, h6, h7⟩ := acc hy h
                refine ⟨true, r, used, keys, name, .write, rfl, ?_, hn, h6, ⟨hw, rfl, h2⟩, h3, h4, h5, hrep, h7⟩
                unfold srvNegotiate Srv.arrived
                rw [hs]
                simp only
                rw [if_pos (by simpa using hz), h1]
              · cases h
            · cases h
          · cases h
  · rename_i r
    rw [hp]
    simp only at h ⊢
    split at h
    · cases h
    · rename_i used o keys hs
      split at h
      · cases h
      · rename_i hz
        split at h
        · cases h
        · rename_i name hn
          simp only [Bool.false_eq_true, if_false] at h
          split at h
          · rename_i size file hw
            split at h
            · rename_i hso
              split at h
              · rename_i y hy
                simp only [Except.ok.injEq] at h
                obtain ⟨h1, h2, h3, h4, h5, h6, h7⟩ := acc hy h
                refine ⟨false, r, _, keys, name, .read size, rfl, ?_, hn, h6, ?_, h3, h4, h5, hrep, h7⟩
                · unfold srvNegotiate Srv.arrived
                  rw [hs]
                  simp only
                  rw [if_pos (by simpa using hz), h1]
                · simp only [Bool.false_eq_true, if_false]
                  exact ⟨size, file, hw, rfl, by rw [h2, h1]⟩
              · cases h
            · cases h
          · cases h
  · cases h

/-- When a write request is accepted. -/
theorem newConn_write {S} {v : Srv S} {t : Nat} {dg b : Bytes} {io : NewIo} {hs : Option Aead} {r : Request} {used : Exts}
    {o : Opts} {keys : Option SessionKeys} {name : Bytes} {y : Conn × List Bytes}
    (h1 : v.openRequest dg = (hs, b)) (h2 : Packet.fromBytes b = .ok (.write r))
    (h3 : srvParse v.cfg io.sessionPub r.exts { Opts.default with level := if hs.isSome then .full else .none } = .ok (used, o, keys))
    (h4 : sizeAllowed v.cfg o = true) (h5 : normalizeName r.fileName = some name) (h6 : io.openWrite name = true)
    (h7 : io.socketOk = true)
    (h8 : v.accept ⟨o, hs, .writer ⟨Writer.new, 0, 0, false, false⟩, t, t, 1⟩ true used keys io = some y) :
    v.newConn t dg io = ⟨[], .ok y⟩ := by
  unfold Srv.newConn
  simp only [h1, h2, h3, h4, h5, h6, h7, h8, not_true, if_true, if_false]

/-- When a read request is accepted. -/
theorem newConn_read {S} {v : Srv S} {t : Nat} {dg b : Bytes} {io : NewIo} {hs : Option Aead} {r : Request} {used : Exts}
    {o : Opts} {keys : Option SessionKeys} {name : Bytes} {y : Conn × List Bytes} {size : Option Nat} {file : Bytes}
    (h1 : v.openRequest dg = (hs, b)) (h2 : Packet.fromBytes b = .ok (.read r))
    (h3 : srvParse v.cfg io.sessionPub r.exts { Opts.default with level := if hs.isSome then .full else .none } = .ok (used, o, keys))
    (h4 : sizeAllowed v.cfg o = true) (h5 : normalizeName r.fileName = some name) (h6 : io.openRead name = some (size, file))
    (h7 : io.socketOk = true)
    (h8 : v.accept ⟨(srvReadSize size used o).2, hs, .reader ⟨Reader.new (v.kind (srvReadSize size used o).2.window) file
      (srvReadSize size used o).2.payload (srvReadSize size used o).2.window, 0, false, false⟩, t, t, 1⟩ false
      (srvReadSize size used o).1 keys io = some y) :
    v.newConn t dg io = ⟨[], .ok y⟩ := by
  unfold Srv.newConn
  simp only [h1, h2, h3, h4, h5, h6, h7, h8, not_true, if_true, if_false, Bool.false_eq_true]

/-! ### C24 -/

/-- Specification: the datagram `dg` is the packet `b` encrypted under the key which the server's private key and the
public key at the end of the datagram agree on: ciphertext of the padded packet, tag, nonce, public key. -/
def Spec.SealedToServer {S} (v : Srv S) (dg b : Bytes) : Prop :=
  v.cfg.privateKey.isSome ∧ ∃ cipher tag nonce pub padded, dg = cipher ++ tag ++ nonce ++ pub ∧
    tag.length = 16 ∧ nonce.length = 24 ∧ pub.length = 32 ∧
    (v.handshake pub).dec nonce cipher tag = some padded ∧ Spec.Padded b padded

theorem parseInitial_some {dg ct nonce pub : Bytes} (h : parseInitial dg = some (ct, nonce, pub)) :
    dg = ct ++ nonce ++ pub ∧ nonce.length = 24 ∧ pub.length = 32 ∧ 16 ≤ ct.length := by
  unfold parseInitial at h
  split at h
  · rename_i pub' nonce' ct' h1 h2 h3
    split at h
    · rename_i tag h4
      simp only [Option.some.injEq, Prod.mk.injEq] at h
      obtain ⟨rfl, rfl, rfl⟩ := h
      unfold rsliceToArray at h1 h2 h4
      unfold sliceAtEnd at h3
      split at h3
      case isFalse => cases h3
      rename_i g3
      rw [if_pos (by omega)] at h1 h2
      split at h4
      case isFalse => cases h4
      rename_i g4
      cases h1; cases h2; cases h3
      have e1 : (dg.drop (dg.length - 32 - 0)).take 32 = dg.drop (dg.length - 32) := by
        rw [List.take_of_length_le (by simp; omega), Nat.sub_zero]
      have e2 : (dg.drop (dg.length - 24 - 32)).take 24 ++ dg.drop (dg.length - 32) = dg.drop (dg.length - (32 + 24)) := by
        have : dg.drop (dg.length - 32) = (dg.drop (dg.length - 24 - 32)).drop 24 := by
          rw [List.drop_drop]; congr 1; omega
        rw [this, List.take_append_drop]; congr 1
      refine ⟨?_, by simp; omega, by simp; omega, by simpa using g4⟩
      rw [e1, List.append_assoc, e2, List.take_append_drop]
    · cases h
  · cases h

theorem openInitial_ok {A : Aead} {ct nonce b : Bytes} (hn : nonce.length = 24) (h : openInitial A ct nonce = .ok b) :
    ∃ cipher tag padded, ct = cipher ++ tag ∧ tag.length = 16 ∧ A.dec nonce cipher tag = some padded ∧ Spec.Padded b padded := by
  unfold openInitial openPacket at h
  split at h
  · rename_i p hp
    split at h
    · rename_i r hr
      simp only [Out.ok.injEq] at h
      subst h
      unfold decrypt at hp
      split at hp
      · rename_i n' tag h1 h2
        have hn' : n' = nonce := by
          have := rslice_append ct nonce [] 24 0 hn rfl
          rw [List.append_nil] at this
          rw [this] at h1; exact (Option.some.inj h1).symm
        subst hn'
        have hl : 16 ≤ ct.length := by
          unfold rsliceToArray at h2
          split at h2
          · rename_i g; simp at g; omega
          · cases h2
        have h3 := rslice_append (ct.take (ct.length - 16)) (ct.drop (ct.length - 16)) n' 16 24 (by simp; omega) hn
        rw [List.take_append_drop, h2] at h3
        have h3 := Option.some.inj h3
        have h4 : (ct ++ n').take ((ct ++ n').length - 24 - 16) = ct.take (ct.length - 16) := by
          rw [List.take_append_of_le_length (by simp; omega)]; congr 1; simp; omega
        simp only [h4, Nat.not_lt_zero, if_false, List.drop_zero, List.take_zero, List.nil_append] at hp
        split at hp
        · rename_i p' hd
          simp only [Out.ok.injEq] at hp
          subst hp
          exact ⟨_, tag, p', by rw [h3, List.take_append_drop], by rw [h3]; simp; omega, hd, (c26_remove_iff _ _).mp hr⟩
        · cases hp
      · cases hp
    · cases h
  · cases h
  · cases h

theorem openRequest_some {S} {v : Srv S} {dg b : Bytes} {A : Aead} (h : v.openRequest dg = (some A, b)) :
    Spec.SealedToServer v dg b := by
  unfold Srv.openRequest at h
  split at h
  · rename_i k ct nonce pub hk hp
    split at h
    · rename_i b' hb
      simp only [Prod.mk.injEq, Option.some.injEq] at h
      obtain ⟨rfl, rfl⟩ := h
      obtain ⟨e1, e2, e3, e4⟩ := parseInitial_some hp
      obtain ⟨cipher, tag, padded, h1, h2, h3, h4⟩ := openInitial_ok e2 hb
      exact ⟨by rw [hk]; rfl, cipher, tag, nonce, pub, padded, by rw [e1, h1], h2, e2, e3, h3, h4⟩
    · cases h
  · cases h

/-- Every connection in the table was created by a datagram from its address, and has kept its options, cipher and
direction since. -/
theorem connection_origin {S} (v : Srv S) (evs : List SrvEv) (a : Addr) (c : Conn)
    (hc : (v.run ⟨[], 0⟩ evs).conn a = some c) :
    ∃ t dg io c0 out, SrvEv.main t a dg io ∈ evs ∧ (v.newConn t dg io).result = .ok (c0, out) ∧
      c.opts = c0.opts ∧ c.enc = c0.enc ∧
      ((∃ s s0, c.side = .reader s ∧ c0.side = .reader s0) ∨ (∃ s s0, c.side = .writer s ∧ c0.side = .writer s0)) := by
  have hnd := (c22_table_bound v evs).2
  rw [conn_iff hnd] at hc
  clear hnd
  have same : ∀ {c c' : Conn}, True → (c'.opts = c.opts ∧ c'.enc = c.enc ∧
      ((∃ s s0, c'.side = .reader s ∧ c.side = .reader s0) ∨ (∃ s s0, c'.side = .writer s ∧ c.side = .writer s0))) →
      ∀ {c0 : Conn}, (c.opts = c0.opts ∧ c.enc = c0.enc ∧
      ((∃ s s0, c.side = .reader s ∧ c0.side = .reader s0) ∨ (∃ s s0, c.side = .writer s ∧ c0.side = .writer s0))) →
      (c'.opts = c0.opts ∧ c'.enc = c0.enc ∧
      ((∃ s s0, c'.side = .reader s ∧ c0.side = .reader s0) ∨ (∃ s s0, c'.side = .writer s ∧ c0.side = .writer s0))) := by
    intro c c' _ h c0 h0
    refine ⟨h.1.trans h0.1, h.2.1.trans h0.2.1, ?_⟩
    rcases h.2.2 with ⟨s, s0, h1, h2⟩ | ⟨s, s0, h1, h2⟩ <;> rcases h0.2.2 with ⟨s', s0', h3, h4⟩ | ⟨s', s0', h3, h4⟩
    · exact .inl ⟨s, s0', h1, h4⟩
    · rw [h2] at h3; cases h3
    · rw [h2] at h3; cases h3
    · exact .inr ⟨s, s0', h1, h4⟩
  have refl : ∀ c : Conn, c.opts = c.opts ∧ c.enc = c.enc ∧
      ((∃ s s0, c.side = .reader s ∧ c.side = .reader s0) ∨ (∃ s s0, c.side = .writer s ∧ c.side = .writer s0)) := by
    intro c
    refine ⟨rfl, rfl, ?_⟩
    cases h : c.side with
    | reader s => exact .inl ⟨s, s, rfl, rfl⟩
    | writer s => exact .inr ⟨s, s, rfl, rfl⟩
  have hblk : ∀ c t io, (v.sendBlock c t io).1.opts = c.opts ∧ (v.sendBlock c t io).1.enc = c.enc ∧
      ((∃ s s0, (v.sendBlock c t io).1.side = .reader s ∧ c.side = .reader s0) ∨
       (∃ s s0, (v.sendBlock c t io).1.side = .writer s ∧ c.side = .writer s0)) := by
    intro c t io
    unfold Srv.sendBlock
    split
    · exact refl c
    · rename_i s hs
      simp only
      refine ⟨?_, ?_, .inl ⟨_, _, rfl, hs⟩⟩ <;> split <;> rfl
  have hturn : ∀ {t io c c'}, Spec.Turns v t io c c' → c'.opts = c.opts ∧ c'.enc = c.enc ∧
      ((∃ s s0, c'.side = .reader s ∧ c.side = .reader s0) ∨ (∃ s s0, c'.side = .writer s ∧ c.side = .writer s0)) := by
    intro t io c c' h
    induction h with
    | none => exact refl c
    | turn c' _ ih => exact same trivial (hblk c' t io) ih
  have hhan : ∀ c t dg io, (v.handle c t dg io).1.opts = c.opts ∧ (v.handle c t dg io).1.enc = c.enc ∧
      ((∃ s s0, (v.handle c t dg io).1.side = .reader s ∧ c.side = .reader s0) ∨
       (∃ s s0, (v.handle c t dg io).1.side = .writer s ∧ c.side = .writer s0)) := by
    intro c t dg io
    unfold Srv.handle
    split
    · rename_i s hs
      simp only
      split <;> exact ⟨rfl, rfl, .inl ⟨_, _, rfl, hs⟩⟩
    · rename_i s hs
      exact ⟨rfl, rfl, .inr ⟨_, _, rfl, hs⟩⟩
  have hpass : ∀ (t io lo hi i) (l : List (Addr × Conn)) (c' : Conn), (a, c') ∈ (v.pass t io lo hi i l).1 →
      ∃ c, (a, c) ∈ l ∧ Spec.Turns v t (io a) c c' := fun t io lo hi i l c' h => (pass_turns v t io lo hi i l).1 a c' h
  have hround : ∀ s t io c', (a, c') ∈ (v.sendRound s t io).1.clients → ∃ c, (a, c) ∈ s.clients ∧ Spec.Turns v t (io a) c c' := by
    intro s t io c' h
    unfold Srv.sendRound at h
    split at h
    · rename_i hp
      exact hpass t io s.next none 0 s.clients c' (by rw [hp]; exact h)
    · rename_i hp
      split at h
      · rename_i hq
        obtain ⟨c1, h1, h2⟩ := hpass t io 0 (some s.next) 0 _ c' (by rw [hq]; exact h)
        obtain ⟨c2, h3, h4⟩ := hpass t io s.next none 0 s.clients c1 (by rw [hp]; exact h1)
        exact ⟨c2, h3, h4.trans h2⟩
      · rename_i hq
        obtain ⟨c1, h1, h2⟩ := hpass t io 0 (some s.next) 0 _ c' (by rw [hq]; exact h)
        obtain ⟨c2, h3, h4⟩ := hpass t io s.next none 0 s.clients c1 (by rw [hp]; exact h1)
        exact ⟨c2, h3, h4.trans h2⟩
  -- one step
  have hstep : ∀ s e c', (a, c') ∈ (v.step s e).1.clients →
      (∃ c, (a, c) ∈ s.clients ∧ (c'.opts = c.opts ∧ c'.enc = c.enc ∧
        ((∃ s s0, c'.side = .reader s ∧ c.side = .reader s0) ∨ (∃ s s0, c'.side = .writer s ∧ c.side = .writer s0)))) ∨
      ∃ t dg io out, e = .main t a dg io ∧ (v.newConn t dg io).result = .ok (c', out) := by
    intro s e c' h
    cases e with
    | purge t io => exact .inl ⟨c', (List.mem_filter.mp h).1, refl c'⟩
    | round t io =>
      obtain ⟨c1, h1, h2⟩ := hround s t io c' h
      exact .inl ⟨c1, h1, hturn h2⟩
    | client t b dg io =>
      left
      simp only [Srv.step, List.mem_map] at h
      obtain ⟨⟨b', c1⟩, h1, h2⟩ := h
      split at h2
      · rename_i hb
        simp only [Prod.mk.injEq] at h2
        obtain ⟨rfl, rfl⟩ := h2
        simp only at hb
        subst hb
        exact ⟨c1, h1, hhan _ _ _ _⟩
      · cases h2; exact ⟨c', h1, refl c'⟩
    | main t b dg io =>
      simp only [Srv.step] at h
      split at h
      · exact .inl ⟨c', h, refl c'⟩
      · split at h
        · exact .inl ⟨c', h, refl c'⟩
        · split at h
          · exact .inl ⟨c', h, refl c'⟩
          · rename_i c1 out hr
            rcases List.mem_cons.mp ((insertClient_perm b c1 s.clients).mem_iff.mp h) with h1 | h1
            · cases h1; exact .inr ⟨t, dg, io, out, rfl, hr⟩
            · exact .inl ⟨c', h1, refl c'⟩
  have key : ∀ (evs : List SrvEv) (s : SrvSt) (c : Conn), (a, c) ∈ (v.run s evs).clients →
      (∃ c1, (a, c1) ∈ s.clients ∧ (c.opts = c1.opts ∧ c.enc = c1.enc ∧
        ((∃ s s0, c.side = .reader s ∧ c1.side = .reader s0) ∨ (∃ s s0, c.side = .writer s ∧ c1.side = .writer s0)))) ∨
      ∃ t dg io c0 out, SrvEv.main t a dg io ∈ evs ∧ (v.newConn t dg io).result = .ok (c0, out) ∧
      (c.opts = c0.opts ∧ c.enc = c0.enc ∧
      ((∃ s s0, c.side = .reader s ∧ c0.side = .reader s0) ∨ (∃ s s0, c.side = .writer s ∧ c0.side = .writer s0))) := by
    intro evs
    induction evs with
    | nil => exact fun s c h => .inl ⟨c, h, refl c⟩
    | cons e r ih =>
      intro s c h
      rcases ih _ _ h with ⟨c1, h1, h2⟩ | ⟨t, dg, io, c0, out, h1, h2, h3⟩
      · rcases hstep s e c1 h1 with ⟨c2, h3, h4⟩ | ⟨t, dg, io, out, h3, h4⟩
        · exact .inl ⟨c2, h3, same trivial h2 h4⟩
        · exact .inr ⟨t, dg, io, c1, out, by simp [h3], h4, h2⟩
      · exact .inr ⟨t, dg, io, c0, out, by simp [h1], h2, h3⟩
  rcases key evs _ c hc with ⟨c1, h1, -⟩ | ⟨t, dg, io, c0, out, h1, h2, h3⟩
  · cases h1
  · exact ⟨t, dg, io, c0, out, h1, h2, h3.1, h3.2.1, h3.2.2⟩

/-- **C24** (partial): with required full encryption, in every history every transfer goes back to a datagram which was a request
encrypted to the server's key, and the transfer itself is encrypted. Missing: the transfer's level is full; a level
`data` or `protocol` inside of the encrypted request is accepted, see `c24_data_level_accepted`. -/
theorem c24_required_full_partial {S} (v : Srv S) (hreq : v.cfg.requireFull = true) (evs : List SrvEv) (a : Addr) (c : Conn)
    (hc : (v.run ⟨[], 0⟩ evs).conn a = some c) :
    (∃ t dg io b r, SrvEv.main t a dg io ∈ evs ∧ Spec.SealedToServer v dg b ∧
      (Packet.fromBytes b = .ok (.write r) ∨ Packet.fromBytes b = .ok (.read r))) ∧
    c.enc.isSome ∧ (c.opts.level = .full ∨ c.opts.level = .protocol ∨ c.opts.level = .data) := by
  obtain ⟨t, dg, io, c0, out, h1, h2, h3, h4, -⟩ := connection_origin v evs a c hc
  obtain ⟨write, r, used, keys, name, kind, g1, g2, -, g4, -⟩ := newConn_ok h2
  obtain ⟨u0, o0, hp, -, hk⟩ := srvNegotiate_ok g2
  obtain ⟨u1, o1, cl, hN, hcl, hfull, hcase⟩ := srvParse_ok hp
  have harr := hfull hreq
  have hsome : (v.openRequest dg).1.isSome := by
    unfold Srv.arrived at harr
    split at harr
    · assumption
    · cases harr
  obtain ⟨A, hA⟩ := Option.isSome_iff_exists.mp hsome
  have hopen : v.openRequest dg = (some A, (v.openRequest dg).2) := by rw [← hA]
  have hlev : c.opts.level = o0.level := by
    rw [h3]
    rcases hk with ⟨-, -, hk⟩ | ⟨b, -, -, hk⟩ <;> rw [hk]
  refine ⟨⟨t, dg, io, (v.openRequest dg).2, r, h1, openRequest_some hopen, ?_⟩, ?_, ?_⟩
  · unfold Srv.requestOf at g1
    split at g1
    · rename_i hb; cases g1; exact .inl hb
    · rename_i hb; cases g1; exact .inr hb
    · cases g1
  · rw [h4, g4]
    cases keys <;> simp [hA]
  · rw [hlev]
    rcases hcase with ⟨-, -, -, rfl, -⟩ | ⟨l, remote, auth, -, hl, -, -, -, -, -, rfl, -⟩
    · left; rw [hN.level, harr]
    · clear hp hcl
      revert hl
      cases l <;> simp [srvLevel]

theorem openRequest_sealed {S} (v : Srv S) (hk : v.cfg.privateKey.isSome) (nonce pub b dg : Bytes) (size : Nat)
    (hn : nonce.length = 24) (hpub : pub.length = 32) (hb : b ≠ []) (hs : b.length + 73 ≤ size)
    (h : sealInitial (v.handshake pub) nonce pub b size = .ok dg) : v.openRequest dg = (some (v.handshake pub), b) := by
  obtain ⟨p, ct, tag, h1, -, -, -, -, h2, h3⟩ := c27_initial (v.handshake pub) nonce pub b size hn hpub hb hs
  rw [h1] at h
  simp only [Out.ok.injEq] at h
  subst h
  obtain ⟨k, hk⟩ := Option.isSome_iff_exists.mp hk
  unfold Srv.openRequest
  rw [hk, h2]
  simp only [h3]

/-- A request for the data level: the options of `src/client/extensions.rs:54-115` with default numbers and no authorization key. -/
def Spec.dataRequest (k : Bytes) : Packet :=
  .write ⟨[97], (Exts.empty.insert .sessionPublicKey (encodeKey k)).insert .encryptionLevel (Level.text .data)⟩

theorem exts_isEmpty_iff (e : Exts) : e.isEmpty = true ↔ ∀ k, e k = none := by
  have hall : ∀ k, k ∈ Extension.all := by intro k; cases k <;> decide
  unfold Exts.isEmpty Exts.size
  simp only [beq_iff_eq, List.length_eq_zero_iff, List.filter_eq_nil_iff, Option.isSome_iff_ne_none, ne_eq, Classical.not_not]
  exact ⟨fun h k => h k (hall k), fun h k _ => h k⟩

theorem normalizeName_a : normalizeName [97] = some [97] := by
  have t : trim [97] = [97] := trim_id rfl rfl
  have : usable [97] = true := by rw [usable, t]; decide
  simp [normalizeName, splitSlash, this]

/-- Finding (C24): a server which requires full encryption (without authorized key list) accepts the level `data` inside of an
encrypted request. The transfer then runs at level `data`, where only the content of data packets is encrypted: already
the option acknowledgement goes out in the clear. -/
theorem c24_data_level_accepted {S} (v : Srv S) (hkey : v.cfg.privateKey.isSome) (hauth : v.cfg.authorized = none)
    (pub nonce k : Bytes) (hpub : pub.length = 32) (hn : nonce.length = 24) (hk : k.length = 32) (t : Nat) (io : NewIo)
    (hw : io.openWrite [97] = true) (hso : io.socketOk = true) (hse : io.sendOk = true) :
    ∃ dg c used, sealInitial (v.handshake pub) nonce pub (Spec.dataRequest k).toBytes 516 = .ok dg ∧
      (v.newConn t dg io).result = .ok (c, [(Packet.optionalAck used).toBytes]) ∧ c.opts.level = .data := by
  have hent : ∀ e v, ((Exts.empty.insert .sessionPublicKey (encodeKey k)).insert .encryptionLevel (Level.text .data)) e = some v →
      v.length ≤ Spec.valueCap e ∧ Spec.Text v := by
    intro e v h
    cases e <;> simp [Exts.insert, Exts.empty] at h
    · subst h; exact ⟨(text_level _).1, (text_level _).2⟩
    · subst h; exact ⟨key_length k hk, text_key k⟩
  have hlen : (Spec.dataRequest k).toBytes.length + 73 ≤ 516 := by
    have := exts_toBytes_le _ hent
    simp only [Spec.dataRequest, Packet.toBytes, be16, List.length_append, List.length_cons, List.length_nil]
    have h6 : (ascii "octet").length = 5 := by decide
    simp only [Request.toBytes, h6, List.length_append, List.length_cons, List.length_nil]
    omega
  have hne : (Spec.dataRequest k).toBytes ≠ [] := by simp [Spec.dataRequest, Packet.toBytes, be16]
  obtain ⟨p, ct, tag, h1, -⟩ := c27_initial (v.handshake pub) nonce pub (Spec.dataRequest k).toBytes 516 hn hpub hne hlen
  have hop := openRequest_sealed v hkey nonce pub _ _ 516 hn hpub hne hlen h1
  have hdec : Packet.fromBytes (Spec.dataRequest k).toBytes = .ok (Spec.dataRequest k) :=
    c01_round_trip _ ⟨show Spec.Text [97] from ⟨by decide, by decide⟩, fun k v hv => (hent k v hv).2⟩
  have hpk : decodeKey 32 (encodeKey k) = some k := (c33_round_trip.1 k hk)
  have hlv : Level.parse (Level.text .data) = some .data := (c44_level_text _ _).mpr rfl
  have hres : ∃ c used, (v.newConn t (ct ++ tag ++ nonce ++ pub) io).result = .ok (c, [(Packet.optionalAck used).toBytes]) ∧
      c.opts.level = .data := by
    have hparse : ∃ used keys, srvParse v.cfg io.sessionPub
        ((Exts.empty.insert .sessionPublicKey (encodeKey k)).insert .encryptionLevel (Level.text .data))
        { Opts.default with level := .full } = .ok (used, { Opts.default with level := .data }, some keys) ∧
        used .sessionPublicKey = some (encodeKey io.sessionPub) := by
      refine ⟨(Exts.empty.insert .encryptionLevel (Level.text .data)).insert .sessionPublicKey (encodeKey io.sessionPub),
        ⟨io.sessionPub, k⟩, ?_, ?_⟩
      · simp [srvParse, srvParse.go, srvBlock, srvWindow, srvTimeout, srvSize, Exts.insert, Exts.empty, hauth, optParse,
          checkAuth, hlv, hpk, srvKeys]
      · simp [Exts.insert]
    obtain ⟨used, keys, hparse, hsome⟩ := hparse
    have hemp : used.isEmpty = false := by
      cases he : used.isEmpty with
      | false => rfl
      | true =>
        have := (exts_isEmpty_iff used).mp he .sessionPublicKey
        rw [this] at hsome
        cases hsome
    have hz : sizeAllowed v.cfg { Opts.default with level := .data } = true := by simp [sizeAllowed, Opts.default]
    have hacc : ∃ c, v.accept ⟨{ Opts.default with level := .data }, some (v.handshake pub),
        .writer ⟨Writer.new, 0, 0, false, false⟩, t, t, 1⟩ true used (some keys) io =
          some (c, [(Packet.optionalAck used).toBytes]) ∧ c.opts.level = .data := by
      refine ⟨⟨{ Opts.default with level := .data }, some (v.session keys), .writer ⟨Writer.new, 0, 0, false, false⟩, t, t, 1⟩, ?_, rfl⟩
      have ht : packetType (Packet.optionalAck used).toBytes ≠ some .data := by
        simp [packetType, Packet.toBytes, be16, readU16, PacketType.repr] <;> decide
      simp only [Srv.accept, hemp, hse, Bool.false_eq_true, if_false, if_true, Srv.transfer, Codec.level, protect, if_neg ht,
        Option.map_some]
    obtain ⟨c, hacc, hlc⟩ := hacc
    refine ⟨c, used, ?_, hlc⟩
    rw [newConn_write hop hdec (by simpa using hparse) hz normalizeName_a hw hso hacc]
  obtain ⟨c, used, h2, h3⟩ := hres
  exact ⟨_, c, used, h1, h2, h3⟩

/-! ### C41 -/

/-- **C41**: with `error_to_authorized_only` a datagram which is no request, or a request which is refused because of its options
(credentials, encryption level) or because the file can not be opened, is not answered at all. -/
theorem c41_silent {S} (v : Srv S) (h : v.cfg.errorToAuthorizedOnly = true) (t : Nat) (dg : Bytes) (io : NewIo) (x : Refusal)
    (hx : (v.newConn t dg io).result = .error x) (h1 : x ≠ .size) (h2 : x ≠ .name) : (v.newConn t dg io).replies = [] :=
  (newConn_replies v t dg io).2 h x hx h1 h2

/-- Whatever is refused for another reason has passed the option check. -/
theorem newConn_refused {S} {v : Srv S} {t : Nat} {dg : Bytes} {io : NewIo} {x : Refusal}
    (h : (v.newConn t dg io).result = .error x) :
    x = .notRequest ∨ x = .options ∨ ∃ write r used o keys, v.requestOf dg = some (write, r) ∧
      srvParse v.cfg io.sessionPub r.exts { Opts.default with level := v.arrived dg } = .ok (used, o, keys) := by
  unfold Srv.newConn at h
  unfold Srv.requestOf Srv.arrived
  simp only at h
  split at h <;> rename_i hp
  · split at h
    · simp only [Except.error.injEq] at h; exact .inr (.inl h.symm)
    · rename_i hs; exact .inr (.inr ⟨_, _, _, _, _, by rw [hp], hs⟩)
  · split at h
    · simp only [Except.error.injEq] at h; exact .inr (.inl h.symm)
    · rename_i hs; exact .inr (.inr ⟨_, _, _, _, _, by rw [hp], hs⟩)
  · simp only [Except.error.injEq] at h; exact .inl h.symm

/-- **C41**, for a whole server: with `error_to_authorized_only` and an authorized key list, a datagram to the main socket is
answered only if it is a request with a listed key and a valid signature (of the session key) under it, in any state of the server. -/
theorem c41_only_authorized {S} (v : Srv S) (h : v.cfg.errorToAuthorizedOnly = true) (ks : List Bytes)
    (hks : v.cfg.authorized = some ks) (s : SrvSt) (t : Nat) (a : Addr) (dg : Bytes) (io : NewIo)
    (hout : (v.step s (.main t a dg io)).2 ≠ []) :
    ∃ write r key sig remote keyText sigText remoteText, v.requestOf dg = some (write, r) ∧
      r.exts .authPublicKey = some keyText ∧ decodeVerifyingKey S.point keyText = some key ∧ key ∈ ks ∧
      r.exts .signature = some sigText ∧ decodeSignature sigText = some sig ∧
      r.exts .sessionPublicKey = some remoteText ∧ decodeKey 32 remoteText = some remote ∧
      S.verify key remote sig = true := by
  have key : ∀ write r used o keys, v.requestOf dg = some (write, r) →
      srvParse v.cfg io.sessionPub r.exts { Opts.default with level := v.arrived dg } = .ok (used, o, keys) →
      ∃ write r key sig remote keyText sigText remoteText, v.requestOf dg = some (write, r) ∧
      r.exts .authPublicKey = some keyText ∧ decodeVerifyingKey S.point keyText = some key ∧ key ∈ ks ∧
      r.exts .signature = some sigText ∧ decodeSignature sigText = some sig ∧
      r.exts .sessionPublicKey = some remoteText ∧ decodeKey 32 remoteText = some remote ∧
      S.verify key remote sig = true := by
    intro write r used o keys h1 h2
    obtain ⟨u1, o1, cl, -, -, -, hcase⟩ := srvParse_ok h2
    rcases hcase with ⟨-, hn, -⟩ | ⟨l, remote, auth, -, -, -, hses, hauth, hin, -⟩
    · rw [hks] at hn; cases hn
    · obtain ⟨k, rfl, ha⟩ := hin ks hks
      obtain ⟨t, ts, sig, g1, g2, g3, g4, g5⟩ := checkAuth_ok_some hauth
      obtain ⟨rt, g6, g7⟩ := optParse_ok_some hses
      exact ⟨write, r, k, sig, remote, t, ts, rt, h1, g1, g2, ha, g3, g4, g6, g7, g5⟩
  simp only [Srv.step] at hout
  split at hout
  · exact absurd rfl hout
  · split at hout
    · exact absurd rfl hout
    · split at hout
      · rename_i x hx
        rcases newConn_refused hx with rfl | rfl | ⟨write, r, used, o, keys, h1, h2⟩
        · rw [c41_silent v h t dg io _ hx (by simp) (by simp)] at hout; exact absurd rfl hout
        · rw [c41_silent v h t dg io _ hx (by simp) (by simp)] at hout; exact absurd rfl hout
        · exact key write r used o keys h1 h2
      · rename_i c out hr
        obtain ⟨write, r, used, keys, name, kind, g1, g2, -⟩ := newConn_ok hr
        obtain ⟨u0, o0, hp, -⟩ := srvNegotiate_ok g2
        exact key write r u0 o0 keys g1 hp

/-- Finding (C41): the two other refusals, a transfer size above the limit and an unusable file name, ignore
`error_to_authorized_only` and the encryption of the handshake: the error goes out in the clear. -/
theorem c41_plain_errors {S} (v : Srv S) (t : Nat) (dg : Bytes) (io : NewIo) :
    ((v.newConn t dg io).result = .error .size → (v.newConn t dg io).replies = [(Packet.error .diskFull []).toBytes]) ∧
    ((v.newConn t dg io).result = .error .name → (v.newConn t dg io).replies = [(Packet.error .accessViolation []).toBytes]) := by
  generalize hn : v.newConn t dg io = res
  unfold Srv.newConn at hn
  simp only at hn
  repeat' split at hn
  all_goals
    subst hn
    refine ⟨?_, ?_⟩ <;> intro h
  all_goals first
    | rfl
    | exact Refusal.noConfusion (Except.error.inj h)
    | (cases h; done)

/-! ### C16 and C23 for whole histories -/

/-- **C16**: in every history every transfer stays within the configured limits. -/
theorem c16_all_connections {S} (v : Srv S) (hb : 512 ≤ v.cfg.maxBlock) (hw : 1 ≤ v.cfg.maxWindow) (evs : List SrvEv)
    (a : Addr) (c : Conn) (hc : (v.run ⟨[], 0⟩ evs).conn a = some c) :
    (512 ≤ c.opts.blockSize ∧ c.opts.blockSize ≤ v.cfg.maxBlock) ∧ (1 ≤ c.opts.window ∧ c.opts.window ≤ v.cfg.maxWindow) ∧
    (c.opts.retry = 80 ∨ 1000 ≤ c.opts.retry ∧ c.opts.retry ≤ v.cfg.requestTimeout) := by
  obtain ⟨t, dg, io, c0, out, h1, h2, h3, -⟩ := connection_origin v evs a c hc
  obtain ⟨write, r, used, keys, name, kind, g1, g2, -⟩ := newConn_ok h2
  rw [h3]
  obtain ⟨f1, f2, f3, -⟩ := c16_server_limits v.cfg hb hw io.sessionPub _ r.exts kind used c0.opts keys g2
  exact ⟨f1, f2, f3⟩

/-- **C23** for whole histories: with an authorized key list every transfer the server ever has goes back to a request with
a listed key and a signature, valid under it, of the session key whose cipher protects the transfer. -/
theorem c23_all_connections {S} (v : Srv S) (ks : List Bytes) (hks : v.cfg.authorized = some ks) (evs : List SrvEv)
    (a : Addr) (c : Conn) (hc : (v.run ⟨[], 0⟩ evs).conn a = some c) :
    ∃ t dg io write r key sig remote keyText sigText remoteText, SrvEv.main t a dg io ∈ evs ∧ v.requestOf dg = some (write, r) ∧
      r.exts .authPublicKey = some keyText ∧ decodeVerifyingKey S.point keyText = some key ∧ key ∈ ks ∧
      r.exts .signature = some sigText ∧ decodeSignature sigText = some sig ∧
      r.exts .sessionPublicKey = some remoteText ∧ decodeKey 32 remoteText = some remote ∧
      S.verify key remote sig = true ∧ c.enc = some (v.session ⟨io.sessionPub, remote⟩) ∧
      (c.opts.level = .data ∨ c.opts.level = .protocol ∨ c.opts.level = .full) := by
  obtain ⟨t, dg, io, c0, out, h1, h2, h3, h4, -⟩ := connection_origin v evs a c hc
  obtain ⟨write, r, used, keys, name, kind, g1, g2, -, g4, -⟩ := newConn_ok h2
  obtain ⟨key, sig, remote, kt, st, rt, f1, f2, f3, f4, f5, f6, f7, f8, f9, f10⟩ :=
    c23_authorized_keys v.cfg ks hks io.sessionPub _ r.exts kind used c0.opts keys g2
  refine ⟨t, dg, io, write, r, key, sig, remote, kt, st, rt, h1, g1, f1, f2, f3, f4, f5, f6, f7, f8, ?_, by rw [h3]; exact f10⟩
  rw [h4, g4, f9]

end Tftp

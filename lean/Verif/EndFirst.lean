import Verif.EndOnce
import Verif.KeyExchange
/-
C52, C53: which datagrams of the server a client which still waits for the first answer can take for one: the acceptance, or a datagram of
the transfer; never a refusal.
-/
namespace Tftp
open Spec

/-- The reason of a refusal, step by step; `none`: the request was accepted. -/
theorem newConn_steps {S} (v : Srv S) (t : Nat) (dg : Bytes) (io : NewIo) :
    match v.requestOf dg with
    | none => (v.newConn t dg io).result = .error .notRequest ∧ (v.newConn t dg io).replies = []
    | some (write, r) =>
      match srvParse v.cfg io.sessionPub r.exts { Opts.default with level := v.arrived dg } with
      | .error _ => (v.newConn t dg io).result = .error .options ∧ (v.newConn t dg io).replies =
          v.replyError (v.openRequest dg).1 { Opts.default with level := v.arrived dg } io.nonce .illegalOperation
      | .ok (_, o, _) =>
        if ¬ sizeAllowed v.cfg o then (v.newConn t dg io).result = .error .size ∧ (v.newConn t dg io).replies = [(Packet.error .diskFull []).toBytes]
        else match normalizeName r.fileName with
          | none => (v.newConn t dg io).result = .error .name ∧ (v.newConn t dg io).replies = [(Packet.error .accessViolation []).toBytes]
          | some name =>
            if (if write then io.openWrite name else (io.openRead name).isSome) then
              (v.newConn t dg io).replies = [] ∧ ((∃ y, (v.newConn t dg io).result = .ok y) ∨ (v.newConn t dg io).result = .error .socket ∨
                (v.newConn t dg io).result = .error .send)
            else (v.newConn t dg io).result = .error .file ∧
              (v.newConn t dg io).replies = v.replyError (v.openRequest dg).1 o io.nonce .diskFull := by
  generalize hn : v.newConn t dg io = res
  unfold Srv.newConn at hn
  unfold Srv.requestOf Srv.arrived
  simp only at hn
  cases hp : Packet.fromBytes (v.openRequest dg).2 with
  | error x => rw [hp] at hn; simp only at hn ⊢; subst hn; exact ⟨rfl, rfl⟩
  | ok p =>
    rw [hp] at hn
    cases p with
    | write r =>
      simp only at hn ⊢
      cases hs : srvParse v.cfg io.sessionPub r.exts { Opts.default with level := if (v.openRequest dg).1.isSome then .full else .none } with
      | error x => rw [hs] at hn; simp only at hn ⊢; subst hn; exact ⟨rfl, rfl⟩
      | ok q =>
        rw [hs] at hn
        simp only at hn ⊢
        by_cases hz : sizeAllowed v.cfg q.2.1 = true
        · simp only [hz, not_true_eq_false, ↓reduceIte] at hn ⊢
          cases hm : normalizeName r.fileName with
          | none => rw [hm] at hn; simp only at hn ⊢; subst hn; exact ⟨rfl, rfl⟩
          | some name =>
            rw [hm] at hn
            simp only at hn ⊢
            cases hw : io.openWrite name with
            | false => simp only [hw, Bool.false_eq_true, ↓reduceIte] at hn ⊢; subst hn; exact ⟨rfl, rfl⟩
            | true =>
              simp only [hw, ↓reduceIte] at hn ⊢
              split at hn
              · split at hn
                · subst hn; exact ⟨rfl, .inl ⟨_, rfl⟩⟩
                · subst hn; exact ⟨rfl, .inr (.inr rfl)⟩
              · subst hn; exact ⟨rfl, .inr (.inl rfl)⟩
        · simp only [hz, not_false_eq_true, ↓reduceIte, Bool.false_eq_true] at hn ⊢
          subst hn; exact ⟨rfl, rfl⟩
    | read r =>
      simp only at hn ⊢
      cases hs : srvParse v.cfg io.sessionPub r.exts { Opts.default with level := if (v.openRequest dg).1.isSome then .full else .none } with
      | error x => rw [hs] at hn; simp only at hn ⊢; subst hn; exact ⟨rfl, rfl⟩
      | ok q =>
        rw [hs] at hn
        simp only at hn ⊢
        by_cases hz : sizeAllowed v.cfg q.2.1 = true
        · simp only [hz, not_true_eq_false, ↓reduceIte] at hn ⊢
          cases hm : normalizeName r.fileName with
          | none => rw [hm] at hn; simp only at hn ⊢; subst hn; exact ⟨rfl, rfl⟩
          | some name =>
            rw [hm] at hn
            simp only [Bool.false_eq_true, ↓reduceIte] at hn ⊢
            cases hw : io.openRead name with
            | none => simp only [hw, Option.isSome_none, Bool.false_eq_true, ↓reduceIte] at hn ⊢; subst hn; exact ⟨rfl, rfl⟩
            | some sf =>
              simp only [hw, Option.isSome_some, ↓reduceIte] at hn ⊢
              split at hn
              · split at hn
                · subst hn; exact ⟨rfl, .inl ⟨_, rfl⟩⟩
                · subst hn; exact ⟨rfl, .inr (.inr rfl)⟩
              · subst hn; exact ⟨rfl, .inr (.inl rfl)⟩
        · simp only [hz, not_false_eq_true, ↓reduceIte, Bool.false_eq_true] at hn ⊢
          subst hn; exact ⟨rfl, rfl⟩
    | data _ _ => simp only at hn ⊢; subst hn; exact ⟨rfl, rfl⟩
    | ack _ => simp only at hn ⊢; subst hn; exact ⟨rfl, rfl⟩
    | error _ _ => simp only at hn ⊢; subst hn; exact ⟨rfl, rfl⟩
    | optionalAck _ => simp only at hn ⊢; subst hn; exact ⟨rfl, rfl⟩

theorem sealPacket_length {A : Aead} {nonce b d : Bytes} {size : Nat} (hn : nonce.length = 24) (h : sealPacket A nonce b size = .ok d) :
    d.length = size + 41 := by
  by_cases hc : b ≠ [] ∧ b.length ≤ size
  · obtain ⟨p, ct, tag, h1, -, -, h2, h3, -⟩ := c27_packet A nonce b size hn hc.1 hc.2
    rw [h1] at h
    cases h
    simp only [List.length_append]
    omega
  · unfold sealPacket at h
    rw [(c26_padding_round_trip b _).2 (by
      rcases Classical.em (b = []) with h0 | h0
      · exact .inl h0
      · refine .inr ?_
        have : ¬ b.length ≤ size := fun h => hc ⟨h0, h⟩
        omega)] at h
    cases h

/-- Limits on the options after parsing. -/
theorem parsed_limits {S} {cfg : SrvCfg S} (hb : 512 ≤ cfg.maxBlock) {session : Bytes} {ce : Exts} {lvl : Level} {u : Exts} {o : Opts}
    {k : Option SessionKeys} (h : srvParse cfg session ce { Opts.default with level := lvl } = .ok (u, o, k)) :
    (512 ≤ o.blockSize ∧ o.blockSize ≤ cfg.maxBlock) ∧ (lvl = .full → o.level = .data ∨ o.level = .protocol ∨ o.level = .full) := by
  obtain ⟨u1, o1, cl, hN, _, _, hor⟩ := srvParse_ok h
  have h1 : 512 ≤ o1.blockSize ∧ o1.blockSize ≤ cfg.maxBlock := by
    rcases hN.block with ⟨_, h, _⟩ | ⟨n, _, h1, h2, _⟩ <;> omega
  rcases hor with ⟨_, _, _, rfl, _⟩ | ⟨l, _, _, _, hl, _, _, _, _, _, rfl, _⟩
  · exact ⟨h1, fun h => .inr (.inr (hN.level.trans h))⟩
  · refine ⟨h1, fun _ => ?_⟩
    cases l <;> simp_all [srvLevel]

theorem arrived_full {S} {v : Srv S} {dg : Bytes} (h : (v.openRequest dg).1.isSome = true) : v.arrived dg = .full := by
  unfold Srv.arrived; rw [if_pos h]

variable {S : SigScheme}

/-- The block size the server has read from the request of this client is not larger than what the client asked for. -/
theorem asked_block {v : Parties S} {late} (h : Honest v late) {e : Exts} (he : v.ReqExts e) {session : Bytes} {lvl : Level} {u : Exts}
    {o : Opts} {k : Option SessionKeys} (hp : srvParse v.srv.cfg session e { Opts.default with level := lvl } = .ok (u, o, k)) :
    o.blockSize ≤ max v.co.blockSize 512 := by
  obtain ⟨u1, o1, cl, hN, -, -, hor⟩ := srvParse_ok hp
  have h1 : o1.blockSize ≤ max v.co.blockSize 512 := by
    rcases hN.block with ⟨-, h1, -⟩ | ⟨n, hn, -, h2, -⟩
    · omega
    · rcases he with rfl | ⟨-, rfl⟩
      · unfold Parties.asked at hn
        rw [createExtensions_eq] at hn
        simp only [Spec.requested, Spec.request] at hn
        split at hn
        · cases hn
        · have hle : (v.cli.requestOpts v.job).blockSize ≤ 65535 := by
            have := co_block v
            unfold Parties.co at this
            rw [this]; exact h.blockSize
          simp only [Option.bind_some, parse_decimal 65535 _ hle, Option.some.injEq] at hn
          unfold Parties.co
          omega
      · cases hn
  rcases hor with ⟨-, -, -, rfl, -⟩ | ⟨l, remote, auth, -, -, -, -, -, -, -, rfl, -⟩
  · exact h1
  · exact h1

/-- Fewer than 40 bytes are not a sealed packet. -/
theorem openPacket_short (A : Aead) {b : Bytes} (h : b.length < 24) : ∀ p, openPacket A b ≠ .ok p := by
  intro p hp
  unfold openPacket decrypt at hp
  have : rsliceToArray 24 b 0 = none := by
    unfold rsliceToArray
    simp
    omega
  rw [this] at hp
  cases hp

/-- What an encrypted reply looks like. -/
theorem replyError_read {v : Srv S} {A : Aead} {o : Opts} {n : Nat} {code : ErrorCode} {d : Bytes}
    (hd : d ∈ v.replyError (some A) o n code) (hb : 512 ≤ o.blockSize) (ho : o.level = .data ∨ o.level = .protocol ∨ o.level = .full) :
    d.length ≤ o.blockSize + 1 ∧ openPacket A d = .ok (Packet.error code []).toBytes := by
  unfold Srv.replyError at hd
  split at hd
  · cases hd
  · simp only at hd
    split at hd
    · rename_i x hx
      simp only [List.mem_singleton] at hd
      subst hd
      have hl := sealPacket_length (v.nonce_length _) hx
      have hpay : 5 ≤ o.payload ∧ o.payload + 40 ≤ o.blockSize := by
        unfold Opts.payload
        rcases ho with e | e | e <;> rw [e] <;> simp only <;> omega
      obtain ⟨d', h1, h2⟩ := seal_open A (v.nonce n) (Packet.error code []).toBytes o.payload (v.nonce_length _)
        (by simp [Packet.toBytes, be16]) (by simp [Packet.toBytes, be16]; omega)
      rw [h1] at hx
      cases hx
      exact ⟨by omega, h2⟩
    · cases hd

/-- A refusal is read as an error, or not at all. -/
theorem refusal_read {v : Parties S} {late} (h : Honest v late) {d b : Bytes} (hd : v.Refusal d)
    (hb : v.sock.recv (d.take (recvBuffer v.co.blockSize)) = some b) : ∃ code, b = (Packet.error code []).toBytes := by
  obtain ⟨t, dg, io, hq, hm⟩ := hd
  have hshort : ∀ code, (Packet.error code []).toBytes.length = 5 := fun code => by simp [Packet.toBytes, be16]
  have take5 : ∀ {x : Bytes}, x.length ≤ max v.co.blockSize 512 + 4 → x.take (recvBuffer v.co.blockSize) = x := by
    intro x hx
    exact List.take_of_length_le (by unfold recvBuffer; omega)
  obtain ⟨e, he, hreq, hway⟩ := request_read h hq
  rcases hway with ⟨ho, hn⟩ | ⟨hc, hs, rfl⟩
  · obtain ⟨code, rfl⟩ := replies_plain hn d hm
    rw [take5 (by rw [hshort]; omega), ho.recv _ (by simp)] at hb
    exact ⟨code, (Option.some.inj hb).symm⟩
  · have hrecv : ∀ {x}, v.sock.recv x = some b → openPacket (v.srv.handshake v.cli.handshakePub) x = .ok b := by
      intro x hx
      unfold Sock.recv at hx
      rw [hc.enc, hc.level] at hx
      simp only [unprotect] at hx
      split at hx
      · rename_i p hp
        cases hx
        exact hp
      · cases hx
    have plain : ∀ code, d ∈ [(Packet.error code []).toBytes] → ∃ code, b = (Packet.error code []).toBytes := by
      intro code hx
      simp only [List.mem_singleton] at hx
      subst hx
      rw [take5 (by rw [hshort]; omega)] at hb
      exact absurd (hrecv hb) (openPacket_short _ (by rw [hshort]; omega) _)
    have sealed : ∀ (o : Opts) (n : Nat) (code : ErrorCode), 512 ≤ o.blockSize → o.blockSize ≤ max v.co.blockSize 512 →
        (o.level = .data ∨ o.level = .protocol ∨ o.level = .full) →
        d ∈ v.srv.replyError (v.srv.openRequest dg).1 o n code → ∃ code, b = (Packet.error code []).toBytes := by
      intro o n code h1 h2 h3 hx
      rw [hs] at hx
      obtain ⟨g1, g2⟩ := replyError_read hx h1 h3
      rw [take5 (by omega)] at hb
      have := hrecv hb
      rw [g2] at this
      cases this
      exact ⟨code, rfl⟩
    have harr : v.srv.arrived dg = .full := arrived_full (by rw [hs]; rfl)
    have hst := newConn_steps v.srv t dg io
    rw [hreq] at hst
    simp only at hst
    cases hp : srvParse v.srv.cfg io.sessionPub v.asked { Opts.default with level := v.srv.arrived dg } with
    | error x =>
      rw [hp] at hst
      simp only at hst
      rw [hst.2] at hm
      exact sealed _ _ _ (by simp [Opts.default]) (by simp only [Opts.default]; omega) (.inr (.inr harr)) hm
    | ok y =>
      obtain ⟨u, o, k⟩ := y
      have hlim := parsed_limits h.maxBlock.1 hp
      have hblk := asked_block h he hp
      rw [hp] at hst
      simp only at hst
      split at hst
      · rw [hst.2] at hm
        exact plain _ hm
      · split at hst
        · rw [hst.2] at hm
          exact plain _ hm
        · have fin : (v.srv.newConn t dg io).replies = [] ∨
              (v.srv.newConn t dg io).replies = v.srv.replyError (v.srv.openRequest dg).1 o io.nonce .diskFull := by
            split at hst <;> split at hst
            · exact .inl hst.1
            · exact .inr hst.2
            · exact .inl hst.1
            · exact .inr hst.2
          rcases fin with e | e <;> rw [e] at hm
          · cases hm
          · exact sealed _ _ _ hlim.1.1 hblk (hlim.2 harr) hm

/-- A refusal is not taken for an answer. -/
theorem refusal_not_answer {v : Parties S} {late} (h : Honest v late) {d b : Bytes} (hd : v.Refusal d)
    (hb : v.sock.recv (d.take (recvBuffer v.co.blockSize)) = some b) : ¬ Answer b := by
  obtain ⟨code, rfl⟩ := refusal_read h hd hb
  have hdec : Packet.fromBytes (Packet.error code []).toBytes = .ok (.error code []) := decode_error code
  rintro (⟨e, hx⟩ | ⟨e, hx⟩ | ⟨e, x, hx⟩) <;> rw [hdec] at hx <;> cases hx

/-- Where the datagrams of the server come from. -/
def Whence (v : Parties S) (w : World) : Prop :=
  ∀ p ∈ w.down, (p.ep, p.bytes) ∈ w.acc ∨ v.Refusal p.bytes ∨ OfTransfer v w p.ep p.bytes

theorem whence_init (v : Parties S) (t : Nat) : Whence v (v.init t) := fun _ h => nomatch h

theorem whence_client {v : Parties S} {w : World} (h : Whence v w) (i : CliIn) : Whence v (v.step w (.client i)) := h

theorem whence_server {v : Parties S} {late} {w : World} (h : Whence v w)
    (hups : ∀ p ∈ w.up, (w.conns p.ep).isSome ∨ p.ep = v.cli.cfg.endpoint ∧ v.IsReq p.bytes)
    (ep : Ep) (e : LifeEv) (ha : Allowed v late w (.server ep e)) : Whence v (v.step w (.server ep e)) := by
  have keep : ∀ {w' : World}, (∀ e c, w.conns e = some c → ∃ c', w'.conns e = some c' ∧ c'.opts = c.opts ∧ c'.enc = c.enc) →
      (∀ x ∈ w.acc, x ∈ w'.acc) → ∀ p ∈ w.down, (p.ep, p.bytes) ∈ w'.acc ∨ v.Refusal p.bytes ∨ OfTransfer v w' p.ep p.bytes := by
    intro w' hk hacc p hp
    rcases h p hp with h1 | h1 | ⟨c, q, h1, h2, h3⟩
    · exact .inl (hacc _ h1)
    · exact .inr (.inl h1)
    · obtain ⟨c', g1, g2, g3⟩ := hk _ _ h1
      exact .inr (.inr ⟨c', q, g1, by rw [transfer_eq v.srv g2 g3]; exact h2, h3⟩)
  cases hlive : w.live with
  | some l =>
    cases hc : w.conns l with
    | none => 
      unfold Parties.step
      simp only [hlive, hc]
      exact h
    | some c =>
      have hlp := life_payload v.srv v.stops c e
      unfold Parties.step
      simp only [hlive, hc]
      cases hn : (v.srv.lifeStep v.stops (some c) e).1 with
      | none =>
        simp only
        intro p hp
        rcases List.mem_append.mp hp with hp | hp
        · obtain ⟨d, hd, rfl⟩ := List.mem_map.mp hp
          obtain ⟨q, h1, h2⟩ := hlp.1 d hd
          exact .inr (.inr ⟨c, q, hc, h1, h2⟩)
        · exact keep (fun e c hc => ⟨c, hc, rfl, rfl⟩) (fun _ h => h) p hp
      | some c' =>
        obtain ⟨k1, k2⟩ := hlp.2 c' hn
        simp only
        generalize hw' : ({ w with conns := setAt w.conns l c', live := some l, down := (v.srv.lifeStep v.stops (some c) e).2.map (⟨l, ·, w.clock l⟩) ++ w.down } : World) = w'
        have e1 : w'.conns = setAt w.conns l c' := by rw [← hw']
        have e2 : w'.acc = w.acc := by rw [← hw']
        have e3 : w'.down = (v.srv.lifeStep v.stops (some c) e).2.map (⟨l, ·, w.clock l⟩) ++ w.down := by rw [← hw']
        intro p hp
        rw [e3] at hp
        rcases List.mem_append.mp hp with hp | hp
        · obtain ⟨d, hd, rfl⟩ := List.mem_map.mp hp
          obtain ⟨q, h1, h2⟩ := hlp.1 d hd
          exact .inr (.inr ⟨c', q, by rw [e1]; simp only [setAt_same], by rw [transfer_eq v.srv k1 k2]; exact h1, h2⟩)
        · refine keep (fun e' x hx => ?_) (fun _ h => by rw [e2]; exact h) p hp
          rw [e1]
          by_cases hel : e' = l
          · subst hel
            rw [hc] at hx
            cases hx
            exact ⟨c', by simp only [setAt_same], k1, k2⟩
          · exact ⟨x, by simp only [setAt_other hel]; exact hx, rfl, rfl⟩
  | none =>
    have idle : (v.srv.lifeStep v.stops none e) = (none, []) → Whence v (v.step w (.server ep e)) := by
      intro hi
      unfold Parties.step
      simp only [hlive, hi, List.map_nil, List.nil_append]
      exact h
    cases e with
    | tick t io | recv t dg io | check t io | drop => exact idle rfl
    | start t dg io =>
      obtain ⟨⟨p, hp, hpe, rfl⟩, hasks, ⟨hip, hnew⟩, -, -⟩ := ha hlive
      by_cases hreq : v.srv.requestOf p.bytes = none
      · exact idle (by simp only [Srv.lifeStep, newConn_other hreq])
      replace hreq : v.IsReq p.bytes := by
        cases hm : (w.conns v.cli.cfg.endpoint).isSome with
        | true => exact hasks hm hreq
        | false =>
          rcases hups p hp with g | g
          · rw [hpe, hm] at g; cases g
          · exact g.2
      unfold Parties.step
      simp only [hlive, Srv.lifeStep]
      cases hres : (v.srv.newConn t p.bytes io).result with
      | error x =>
        simp only
        intro r hr
        rcases List.mem_append.mp hr with hr | hr
        · obtain ⟨d, hd, rfl⟩ := List.mem_map.mp hr
          exact .inr (.inl ⟨t, p.bytes, io, hreq, hd⟩)
        · exact keep (fun e c hc => ⟨c, hc, rfl, rfl⟩) (fun _ h => h) r hr
      | ok y =>
        obtain ⟨c, out⟩ := y
        simp only
        intro r hr
        rcases List.mem_append.mp hr with hr | hr
        · obtain ⟨d, hd, rfl⟩ := List.mem_map.mp hr
          exact .inl (List.mem_append_left _ (List.mem_map.mpr ⟨d, hd, rfl⟩))
        · refine keep (fun e' x hx => ?_) (fun _ h => List.mem_append_right _ h) r hr
          have hel : e' ≠ ep := fun he => by subst he; rw [hnew] at hx; cases hx
          exact ⟨x, by simp only [setAt_other hel]; exact hx, rfl, rfl⟩

/-- What the client takes for the answer is the acceptance, unless it is a datagram of the transfer. -/
theorem whence_answer {v : Parties S} {late} (h : Honest v late) {w : World} (hw : Whence v w) {q : Query} (hroom : q.room = recvBuffer v.co.blockSize)
    {src : Ep} {d b : Bytes} (hdg : (∃ p ∈ w.down, p.ep = src ∧ p.bytes = d) ∨ v.sock.recv (d.take q.room) = none)
    (hb : v.sock.recv (d.take q.room) = some b) (hA : Answer b) (hacc : OfTransfer v w src d → (src, d) ∈ w.acc) : (src, d) ∈ w.acc := by
  obtain ⟨p, hp, rfl, rfl⟩ := hdg.resolve_right fun hn => by rw [hb] at hn; cases hn
  rcases hw p hp with h1 | h1 | h1
  · exact h1
  · rw [hroom] at hb
    exact absurd hA (refusal_not_answer h h1 hb)
  · exact hacc h1

end Tftp

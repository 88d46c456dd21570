import Verif.Rfc
import Verif.EndPieces
import Verif.Retransmit
/-
C80: a peer which follows the RFCs downloads from the server (Rfc.lean).
-/
namespace Tftp.Rfc
open Tftp Spec

variable {S : SigScheme}

/-! ### Packets -/

theorem number_eq (k : Nat) : be16 (UInt16.ofNat (k % 65536)) = number k := by
  unfold be16 number
  have h : (UInt16.ofNat (k % 65536)).toNat = k % 65536 := toNat_ofNat_mod k
  rw [h]
  congr 1
  · apply UInt8.toNat_inj.mp
    simp only [UInt8.toNat_ofNat']
    omega
  · congr 1
    apply UInt8.toNat_inj.mp
    simp only [UInt8.toNat_ofNat']
    omega

theorem number_inj {a b : Nat} (h : number a = number b) : a % 65536 = b % 65536 := by
  unfold number at h
  simp only [List.cons.injEq, and_true] at h
  obtain ⟨h1, h2⟩ := h
  have h1 := UInt8.toNat_inj.mpr h1
  have h2 := UInt8.toNat_inj.mpr h2
  simp only [UInt8.toNat_ofNat'] at h1 h2
  omega

theorem number_length (k : Nat) : (number k).length = 2 := rfl

theorem data_bytes (k : Nat) (x : Bytes) : (Packet.data (UInt16.ofNat (k % 65536)) x).toBytes = dataPacket k x := by
  change be16 PacketType.data.repr ++ (be16 (UInt16.ofNat (k % 65536)) ++ x) = _
  rw [number_eq]
  rfl

theorem ack_bytes (k : Nat) : (Packet.ack (UInt16.ofNat (k % 65536))).toBytes = ackPacket k := by
  change be16 PacketType.ack.repr ++ be16 (UInt16.ofNat (k % 65536)) = _
  rw [number_eq]
  rfl

theorem dataPacket_head (k : Nat) (x : Bytes) : (dataPacket k x).take 4 = [0, 3] ++ number k := rfl
theorem dataPacket_tail (k : Nat) (x : Bytes) : (dataPacket k x).drop 4 = x := rfl
theorem dataPacket_length (k : Nat) (x : Bytes) : (dataPacket k x).length = x.length + 4 := by
  simp [dataPacket, number]

/-- An error packet, well formed or not, is nothing else. -/
theorem quit_read (text : Bytes) : (∃ c m, Packet.fromBytes ([0, 5] ++ text) = .ok (.error c m)) ∨ ∃ e, Packet.fromBytes ([0, 5] ++ text) = .error e := by
  generalize hb : ([0, 5] ++ text : Bytes) = b
  cases hp : Packet.fromBytes b with
  | error e => exact .inr ⟨e, rfl⟩
  | ok p =>
    have hw := (c03_decode_iff_wire b p).mp hp
    left
    cases hw <;> first | exact ⟨_, _, rfl⟩ | (exfalso; simp at hb; done)

/-! ### The new connection -/

/-- What the peer knows about an unprotected connection from the server's answer. -/
theorem plain_new {v : Srv S} (hb : 512 ≤ v.cfg.maxBlock ∧ v.cfg.maxBlock ≤ 65535) (hw : 1 ≤ v.cfg.maxWindow ∧ v.cfg.maxWindow ≤ 65535)
    {t : Nat} {dg : Bytes} {io : NewIo} {c : Conn} {out : List Bytes} (h : (v.newConn t dg io).result = .ok (c, out)) (he : c.enc = none) :
    c.opts.payload = c.opts.blockSize ∧ 512 ≤ c.opts.blockSize ∧ 1 ≤ c.opts.window ∧
    blockSize out = c.opts.blockSize ∧ windowSize out = c.opts.window ∧ (out = [] ∨ out = [ackPacket 0] ∨ ∃ x, out = [[0, 6] ++ x]) := by
  obtain ⟨write, r, used, keys, name, kind, g1, g2, -, g4, -, -, -, -, -, g6⟩ := newConn_ok h
  rw [he] at g4
  have hkeys : keys = none := by cases keys with
    | none => rfl
    | some k => cases g4
  subst hkeys
  simp only at g4
  have hlvl : v.arrived dg = .none := by unfold Srv.arrived; rw [← g4]; rfl
  rw [hlvl] at g2
  have lim := c16_server_limits v.cfg hb.1 hw.1 _ _ _ _ _ _ _ g2
  obtain ⟨u0, o0, hp, -, hk⟩ := srvNegotiate_ok g2
  obtain ⟨u1, o1, cl, hN, -, -, hcase⟩ := srvParse_ok hp
  rcases hcase with ⟨-, -, rfl, rfl, -⟩ | ⟨_, _, _, _, _, _, _, _, _, _, _, hbad⟩
  rotate_left
  · cases hbad
  have hlevel : c.opts.level = .none := by
    rcases hk with ⟨-, -, e⟩ | ⟨a, -, -, e⟩ <;> rw [e] <;> exact hN.level
  have hpay : c.opts.payload = c.opts.blockSize := by unfold Opts.payload; rw [hlevel]
  have hvals1 : ∀ k x, u0 k = some x → Text x := by
    intro k x hx
    cases k with
    | blockSize =>
      rcases hN.block with ⟨B, -⟩ | ⟨n, -, -, -, B⟩ <;> rw [B] at hx <;> cases hx
      exact text_decimal _
    | windowSize =>
      rcases hN.window with ⟨B, -⟩ | ⟨n, -, -, -, B⟩ <;> rw [B] at hx <;> cases hx
      exact text_decimal _
    | timeout =>
      rcases hN.timeout with ⟨B, -⟩ | ⟨n, -, -, -, -, B⟩ <;> rw [B] at hx <;> cases hx
      exact text_decimal _
    | transferSize =>
      rcases hN.size with ⟨B, -⟩ | ⟨n, -, -, B⟩ <;> rw [B] at hx <;> cases hx
      exact text_decimal _
    | encryptionLevel => rw [hN.rest.1] at hx; cases hx
    | sessionPublicKey => rw [hN.rest.2.1] at hx; cases hx
    | authPublicKey => rw [hN.rest.2.2.1] at hx; cases hx
    | signature => rw [hN.rest.2.2.2] at hx; cases hx
  have hvals : ∀ k x, used k = some x → Text x := by
    intro k x hx
    rcases hk with ⟨-, e, -⟩ | ⟨a, -, e, -⟩
    · rw [e] at hx; exact hvals1 k x hx
    · rw [e] at hx
      unfold srvReadSize at hx
      simp only at hx
      split at hx
      · split at hx
        · simp only [Exts.insert] at hx
          split at hx
          · cases hx; exact text_decimal _
          · exact hvals1 k x hx
        · exact hvals1 k x hx
      · simp only [Exts.remove] at hx
        split at hx
        · cases hx
        · exact hvals1 k x hx
      · exact hvals1 k x hx
  have hbs := lim.1
  have hws := lim.2.1
  have hb65 : c.opts.blockSize ≤ 65535 := by omega
  have hw65 : c.opts.window ≤ 65535 := by omega
  have hcodec : ∀ n b, (v.transfer { c with enc := (v.openRequest dg).1 }).codec.enc n b = some b := by
    intro n b; rw [← g4]; rfl
  refine ⟨hpay, hbs.1, hws.1, ?_⟩
  by_cases hem : used.isEmpty = true
  · simp only [hem, if_true] at g6
    have hnone : ∀ k, used k = none := (exts_isEmpty_iff _).mp hem
    have hB : c.opts.blockSize = 512 := by
      rcases lim.2.2.2.2.1 with e | e
      · rw [hnone] at e; cases e
      · exact e.2
    have hW : c.opts.window = 1 := by
      rcases lim.2.2.2.2.2.1 with e | e
      · rw [hnone] at e; cases e
      · exact e.2
    have hg : ∀ o, o = [] ∨ o = [ackPacket 0] → blockSize o = 512 ∧ windowSize o = 1 := by
      rintro o (rfl | rfl)
      · exact ⟨rfl, rfl⟩
      · have : Packet.fromBytes (ackPacket 0) = .ok (.ack 0) := by rw [← ack_bytes]; exact decode_ack _
        have hg : granted [ackPacket 0] = Exts.empty := by simp only [granted, this]
        unfold blockSize windowSize
        rw [hg]
        exact ⟨rfl, rfl⟩
    split at g6
    · obtain ⟨d, g6, rfl⟩ := g6
      rw [hcodec] at g6
      cases g6
      have := hg [ackPacket 0] (.inr rfl)
      rw [hB, hW]
      exact ⟨this.1, this.2, .inr (.inl rfl)⟩
    · subst g6
      rw [hB, hW]
      exact ⟨rfl, rfl, .inl rfl⟩
  · simp only [hem, Bool.false_eq_true, if_false] at g6
    obtain ⟨d, g6, rfl⟩ := g6
    rw [hcodec] at g6
    cases g6
    have hsome : ∃ k, (used k).isSome := by
      refine Classical.byContradiction fun hn => hem ((exts_isEmpty_iff _).mpr fun k => ?_)
      cases hx : used k with
      | none => rfl
      | some x => exact absurd ⟨k, by rw [hx]; rfl⟩ hn
    have hdec : Packet.fromBytes (Packet.optionalAck used).toBytes = .ok (.optionalAck used) := c01_round_trip _ ⟨hsome, hvals⟩
    have hg : granted [(Packet.optionalAck used).toBytes] = used := by simp only [granted, hdec]
    unfold blockSize windowSize
    rw [hg]
    refine ⟨?_, ?_, .inr (.inr ⟨_, rfl⟩)⟩
    · unfold Spec.requested
      rcases lim.2.2.2.2.1 with e | ⟨e, e'⟩
      · rw [e]; simp only [Option.bind_some, parse_decimal _ _ hb65, Option.getD_some]
      · rw [e, e']; rfl
    · unfold Spec.requested
      rcases lim.2.2.2.2.2.1 with e | ⟨e, e'⟩
      · rw [e]; simp only [Option.bind_some, parse_decimal _ _ hw65, Option.getD_some]
      · rw [e, e']; rfl

/-! ### The invariant -/

/-- A datagram of the server: if the peer reads it as data, then it is a block of the file, of the window at the time it was sent. -/
def DataMail (file : Bytes) (bs W top : Nat) (m : Mail) : Prop :=
  m.bytes.take 2 = [0, 3] → ∃ k, m.bytes = dataPacket k (block file bs k) ∧ 1 ≤ k ∧ k ≤ top ∧ m.stamp < k + W ∧ k ≤ m.stamp + W

/-- A datagram of the peer. -/
def AckMail (m : Mail) : Prop := m.bytes = ackPacket m.stamp ∨ ∃ text, m.bytes = [0, 5] ++ text

/-- The server's connection: it sends `file`, has sent `top` blocks, and the peer has confirmed some of the `blocks` it has. -/
structure ConnDown (v : Srv S) (c0 : Conn) (file : Bytes) (blocks top : Nat) (c : Conn) (s : SendSt) (m : Mapper) (w : Window) : Prop where
  opts : c.opts = c0.opts
  enc : c.enc = none
  side : c.side = .reader s
  inv : SInv (v.transfer c0) file m w s
  base : w.base ≤ blocks
  top : w.top = top

structure FInv (v : Srv S) (c0 : Conn) (file : Bytes) (X : Fetch) (top : Nat) : Prop where
  out : X.peer.out = file.take (bytesIn file c0.opts.payload X.peer.blocks)
  done : X.peer.done = true ↔ X.peer.blocks = nblocks file c0.opts.payload
  le : X.peer.blocks ≤ top
  top_le : top ≤ nblocks file c0.opts.payload
  conn : ∀ c, X.conn = some c → ∃ s m w, ConnDown v c0 file X.peer.blocks top c s m w
  toPeer : ∀ m ∈ X.toPeer, m.stamp ≤ X.peer.blocks ∧ DataMail file c0.opts.payload c0.opts.window top m
  toServer : ∀ m ∈ X.toServer, m.stamp ≤ X.peer.blocks ∧ AckMail m

theorem DataMail.mono {file bs W top top' m} (h : DataMail file bs W top m) (hl : top ≤ top') : DataMail file bs W top' m := by
  intro hd
  obtain ⟨k, h1, h2, h3, h4⟩ := h hd
  exact ⟨k, h1, h2, by omega, h4⟩

theorem plain_enc {v : Srv S} {c : Conn} (he : c.enc = none) (n : Nat) (b : Bytes) : (v.transfer c).codec.enc n b = some b := by
  obtain ⟨o, x, s, a, b', m⟩ := c
  simp only at he
  subst he
  rfl

theorem plain_dec {v : Srv S} {c : Conn} (he : c.enc = none) (b : Bytes) : (v.transfer c).codec.dec b = some b := by
  obtain ⟨o, x, s, a, b', m⟩ := c
  simp only at he
  subst he
  rfl

theorem error_not_data {v : Srv S} {c : Conn} (he : c.enc = none) {n : Nat} {e : ErrorCode} {d : Bytes} (hd : (v.transfer c).codec.enc n (Packet.error e []).toBytes = some d) :
    d.take 2 ≠ [0, 3] := by
  rw [plain_enc he] at hd
  cases hd
  cases e <;> decide

/-- What a sending turn does. -/
theorem tick_cases {c : Cfg} {file : Bytes} {m : Mapper} {w : Window} {s : SendSt} (hbs : 0 < c.bs) (hcap : c.bs ≤ c.cap) (h : SInv c file m w s)
    (retry fail : Bool) (net : SendRes) (nonce : Nat) :
    (fail = true ∧ SInv c file m w (serverSendTick c s retry fail net nonce).1 ∧
      ∀ d, (serverSendTick c s retry fail net nonce).2 = some d → ∃ e, c.emit nonce none (.error e []) = some d) ∨
    (SInv c file m (w.next file c.bs c.W retry).1 (serverSendTick c s retry fail net nonce).1 ∧
      (serverSendTick c s retry fail net nonce).1.failed = s.failed ∧ (serverSendTick c s retry fail net nonce).1.finished = s.finished ∧
      (serverSendTick c s retry fail net nonce).2 = (match (w.next file c.bs c.W retry).2 with
        | none => none
        | some (i, _) => if net = .sent then
            c.emit nonce (some i) (.data (UInt16.ofNat (i % 65536)) (Spec.block file c.bs i)) else none)) := by
  have hinv := h.sim.inv
  have hbase := (next_moves hinv retry).1
  rcases ReaderSim.next hbs h.sim retry fail c.cap hcap with ⟨h1, h2, h3⟩ | ⟨h2, h3⟩
  · left
    unfold serverSendTick
    simp only
    rw [h2]
    refine ⟨h1, (h.reader h3 rfl).fail, ?_⟩
    intro d hd
    simp only at hd
    split at hd
    · exact ⟨_, hd⟩
    · cases hd
  · right
    unfold serverSendTick
    simp only
    rw [h2]
    cases hn : (w.next file c.bs c.W retry).2 with
    | none => exact ⟨h.reader h3 hbase, rfl, rfl, rfl⟩
    | some x => exact ⟨h.reader h3 hbase, rfl, rfl, rfl⟩

/-- A sending turn of the connection. -/
theorem down_tick {v : Srv S} {c0 : Conn} (he0 : c0.enc = none) (hbs : 512 ≤ c0.opts.blockSize) {file : Bytes} {blocks top : Nat} {c : Conn}
    {s : SendSt} {m : Mapper} {w : Window} (h : ConnDown v c0 file blocks top c s m w) (hle : blocks ≤ top) (t : Nat) (io : SendIo) :
    ∃ s' w', ConnDown v c0 file blocks w'.top (v.sendBlock c t io).1 s' m w' ∧ top ≤ w'.top ∧ w'.top ≤ nblocks file c0.opts.payload ∧
      (∀ d ∈ (v.sendBlock c t io).2.1.toList, DataMail file c0.opts.payload c0.opts.window w'.top ⟨d, blocks⟩) ∧
      (io.fail = false → s'.failed = s.failed ∧ s'.finished = s.finished ∧
        (io.net = .sent → c.retryDue t = true → blocks = w.base → blocks < nblocks file c0.opts.payload → 1 ≤ c0.opts.window →
          (v.sendBlock c t io).2.1 = some (dataPacket (blocks + 1) (block file c0.opts.payload (blocks + 1))))) := by
  obtain ⟨ho, he, hs, hinv, hb, ht⟩ := h
  have hpb := payload_bounds hbs
  have hw := hinv.sim.inv
  generalize hc1 : (if c.retryDue t = true then { c with mult := min 255 (c.mult + 2) } else c) = c1
  rw [sendBlock_eq v hs t io c1 hc1]
  have e1 : v.transfer c1 = v.transfer c0 := by
    apply transfer_eq
    · rw [← hc1]; split <;> exact ho
    · rw [← hc1, he0]; split <;> exact he
  have o1 : c1.opts = c0.opts := by rw [← hc1]; split <;> exact ho
  have n1 : c1.enc = none := by rw [← hc1]; split <;> exact he
  simp only
  rw [e1]
  generalize c.retryDue t = retry
  rcases tick_cases (c := v.transfer c0) hpb.1 hpb.2 hinv retry io.fail io.net io.nonce with ⟨h1, h2, h3⟩ | ⟨h1, h2, h3, h4⟩
  · refine ⟨_, w, ⟨o1, n1, rfl, h2, hb, rfl⟩, by omega, hw.top_le, ?_, ?_⟩
    · intro d hd hd2
      simp only [Option.mem_toList, Option.map_eq_some_iff] at hd
      obtain ⟨x, hx, rfl⟩ := hd
      obtain ⟨e, hx⟩ := h3 x hx
      exact absurd hd2 (error_not_data he0 (emit_enc hx))
    · intro hf; rw [h1] at hf; cases hf
  · have hnb := (next_moves hw retry).1
    refine ⟨_, _, ⟨o1, n1, rfl, h1, by rw [hnb]; exact hb, rfl⟩, ?_, h1.sim.inv.top_le, ?_, ?_⟩
    · cases hn : (w.next file (v.transfer c0).bs (v.transfer c0).W retry).2 with
      | none =>
        unfold Window.next at hn ⊢
        repeat' split
        all_goals simp only
        all_goals omega
      | some x =>
        obtain ⟨i, y⟩ := x
        obtain ⟨f1, f2, f3, f4, f5⟩ := Window.next_some hw hn
        rw [f5]
        simp only
        omega
    · intro d hd hd2
      simp only [Option.mem_toList, Option.map_eq_some_iff] at hd
      obtain ⟨x, hx, rfl⟩ := hd
      rw [h4] at hx
      cases hn : (w.next file (v.transfer c0).bs (v.transfer c0).W retry).2 with
      | none => rw [hn] at hx; cases hx
      | some y =>
        obtain ⟨i, again⟩ := y
        obtain ⟨f1, f2, f3, f4, f5⟩ := Window.next_some hw hn
        rw [hn] at hx
        simp only at hx
        split at hx
        · have hx := emit_enc hx
          rw [plain_enc he0, data_bytes] at hx
          have f2 : i ≤ w.base + c0.opts.window := f2
          have hroom : w.top - w.base ≤ c0.opts.window := hw.room
          refine ⟨i, (Option.some.inj hx).symm, by omega, by rw [f5]; simp only; omega, by simp only; omega, by simp only; omega⟩
        · cases hx
    · intro hf
      refine ⟨h2, h3, ?_⟩
      intro hnet hretry hbl hlt hwin
      rw [h4]
      have hn : (w.next file (v.transfer c0).bs (v.transfer c0).W retry).2 = some (w.base + 1, decide (w.base < w.top)) := by
        have hroom := hw
        obtain ⟨k1, k2, k3, k4⟩ := hw
        have k5 : w.base < nblocks file (v.transfer c0).bs := by rw [← hbl]; exact hlt
        have k6 : 1 ≤ (v.transfer c0).W := hwin
        unfold Window.next
        rw [hretry]
        by_cases hbt : w.base < w.top
        · rw [if_pos ⟨rfl, hbt⟩]; simp [hbt]
        · have : w.base = w.top := by omega
          rw [if_neg (by omega), if_neg (by omega), if_pos (by omega)]
          simp [this]
      rw [hn]
      simp only [hnet, if_true]
      unfold Cfg.emit
      rw [plain_enc he0, data_bytes, hbl]
      rfl

theorem handle_reader (v : Srv S) {c : Conn} {s : SendSt} (hs : c.side = .reader s) (t : Nat) (dg : Bytes) (io : RecvIo) :
    (v.handle c t dg io).1.opts = c.opts ∧ (v.handle c t dg io).1.enc = c.enc ∧
    (v.handle c t dg io).1.side = .reader (serverSendRecv (v.transfer c) s dg) ∧ (v.handle c t dg io).2 = none := by
  obtain ⟨o, e, sd, a, b, m⟩ := c
  simp only at hs
  subst hs
  simp only [Srv.handle]
  split <;> exact ⟨rfl, rfl, rfl, rfl⟩

/-- A datagram of the peer reaches the connection. -/
theorem down_recv {v : Srv S} {c0 : Conn} (he0 : c0.enc = none) (hbs : 512 ≤ c0.opts.blockSize) {file : Bytes} {blocks top : Nat} {c : Conn}
    {s : SendSt} {m : Mapper} {w : Window} (h : ConnDown v c0 file blocks top c s m w) (hle : blocks ≤ top)
    {age : Option Nat} (hage : Distinct age c0.opts.window (nblocks file c0.opts.payload))
    {x : Mail} (hx : AckMail x) (hst : x.stamp ≤ blocks) (hin : inTime age x.stamp blocks = true) (t : Nat) (io : RecvIo) :
    ∃ s' m' w', ConnDown v c0 file blocks top (v.handle c t x.bytes io).1 s' m' w' ∧
      (x.bytes = ackPacket x.stamp → s'.failed = s.failed ∧ w'.base = max w.base x.stamp) := by
  obtain ⟨ho, he, hs, hinv, hb, ht⟩ := h
  have hpb := payload_bounds hbs
  have hw := hinv.sim.inv
  obtain ⟨g1, g2, g3, -⟩ := handle_reader v hs t x.bytes io
  have e1 : v.transfer c = v.transfer c0 := transfer_eq v ho (by rw [he0]; exact he)
  rw [e1] at g3
  have hroom : w.top - w.base ≤ c0.opts.window := hw.room
  have htop : w.top ≤ nblocks file c0.opts.payload := hw.top_le
  by_cases hack : x.bytes = ackPacket x.stamp
  · have hfresh : (w.base ≤ x.stamp + 10000 ∨ nblocks file c0.opts.payload ≤ 55535) ∧
        (x.stamp ≤ w.base + 10000 ∨ nblocks file c0.opts.payload ≤ 55535) := by
      unfold Distinct at hage
      unfold inTime at hin
      cases age with
      | none => exact ⟨.inr hage, .inr hage⟩
      | some l =>
        simp only [decide_eq_true_eq] at hin hage
        exact ⟨.inl (by omega), .inl (by omega)⟩
    obtain ⟨hi, hm⟩ := m.index_fresh w.base x.stamp (nblocks file c0.opts.payload) hinv.mapper (by omega) (by omega) hfresh.1 hfresh.2
    have hd : (v.transfer c0).codec.dec x.bytes = some (Packet.ack (UInt16.ofNat (x.stamp % 65536))).toBytes := by
      rw [plain_dec he0, ack_bytes, hack]
    obtain ⟨w', f1, f2, f3, f4⟩ := send_recv_ack (c := v.transfer c0) hpb.1 hinv hd (by omega) hi hm
    exact ⟨_, _, w', ⟨by rw [g1]; exact ho, by rw [g2]; exact he, g3, f1, by omega, by omega⟩, fun _ => ⟨f4, f2⟩⟩
  · rcases hx with hx | ⟨text, hx⟩
    · exact absurd hx hack
    refine ⟨_, m, w, ⟨by rw [g1]; exact ho, by rw [g2]; exact he, g3, ?_, hb, ht⟩, fun h => absurd h hack⟩
    unfold serverSendRecv
    rw [plain_dec he0]
    simp only
    rw [hx]
    rcases quit_read text with ⟨e, y, hp⟩ | ⟨e, hp⟩
    · rw [hp]; exact hinv.fail
    · rw [hp]; exact hinv

/-- Which block the peer takes. -/
theorem hear_data {age : Option Nat} {file : Bytes} {bs W top : Nat} (hage : Distinct age W (nblocks file bs)) (hbs : 0 < bs) {p : Receiver} {x : Mail}
    (hst : x.stamp ≤ p.blocks) (hin : inTime age x.stamp p.blocks = true) (hx : DataMail file bs W top x)
    (hout : p.out = file.take (bytesIn file bs p.blocks)) (hle : p.blocks ≤ top) (htop : top ≤ nblocks file bs) :
    p.hear bs x.bytes = p ∨
    (p.hear bs x.bytes).blocks = p.blocks + 1 ∧ p.blocks + 1 ≤ top ∧
      (p.hear bs x.bytes).out = file.take (bytesIn file bs (p.blocks + 1)) ∧
      ((p.hear bs x.bytes).done = true ↔ p.blocks + 1 = nblocks file bs) := by
  unfold Receiver.hear
  split
  · rename_i hc
    obtain ⟨hnd, hc⟩ := hc
    have h2 : x.bytes.take 2 = [0, 3] := by
      have : x.bytes.take 2 = (x.bytes.take 4).take 2 := by simp [List.take_take]
      rw [this, hc]; rfl
    obtain ⟨k, hk, hk1, hk2, hk3, hk4⟩ := hx h2
    rw [hk, dataPacket_head] at hc
    have hmod := number_inj (List.append_cancel_left hc)
    have hkeq : k = p.blocks + 1 := by
      unfold Distinct at hage
      unfold inTime at hin
      cases age with
      | none => simp only at hage; omega
      | some l =>
        simp only [decide_eq_true_eq] at hin hage
        omega
    subst hkeq
    right
    refine ⟨rfl, hk2, ?_, ?_⟩
    · simp only
      rw [hk, dataPacket_tail, hout, take_bytesIn_succ]
    · simp only [hk, dataPacket_length, decide_eq_true_eq]
      rw [← block_short_iff file bs (p.blocks + 1) hbs (by omega) (by omega)]
      omega
  · exact .inl rfl

theorem timeout_mail {v : Srv S} {c : Conn} (he : c.enc = none) (t : Nat) (io : RecvIo) (file : Bytes) (bs W top blocks : Nat) :
    ∀ d ∈ (v.timeout c t io).2.toList, DataMail file bs W top ⟨d, blocks⟩ := by
  intro d hd hd2
  simp only [Option.mem_toList] at hd
  unfold Srv.timeout at hd
  split at hd
  · cases hd
  · split at hd
    · cases hd
    · simp only at hd
      split at hd
      · exact absurd hd2 (error_not_data he hd)
      · cases hd

/-- Nothing happens to the peer. -/
theorem FInv.server {v : Srv S} {c0 : Conn} {file : Bytes} {X : Fetch} {top : Nat} (h : FInv v c0 file X top) (stops : Bool) (e : LifeEv)
    (top' : Nat) (hl : top ≤ top') (hl' : top' ≤ nblocks file c0.opts.payload)
    (hc : ∀ c, (v.lifeStep stops X.conn e).1 = some c → ∃ s m w, ConnDown v c0 file X.peer.blocks top' c s m w)
    (hd : ∀ d ∈ (v.lifeStep stops X.conn e).2, DataMail file c0.opts.payload c0.opts.window top' ⟨d, X.peer.blocks⟩) :
    FInv v c0 file (X.server v stops e) top' := by
  obtain ⟨h1, h2, h3, h4, h5, h6, h7⟩ := h
  refine ⟨h1, h2, Nat.le_trans h3 hl, hl', hc, ?_, h7⟩
  intro m hm
  simp only [Fetch.server, List.mem_append, List.mem_map] at hm
  rcases hm with ⟨d, hdm, rfl⟩ | hm
  · exact ⟨Nat.le_refl _, hd d hdm⟩
  · exact ⟨(h6 m hm).1, (h6 m hm).2.mono hl⟩

theorem FInv.step {v : Srv S} {c0 : Conn} (he0 : c0.enc = none) (hbs : 512 ≤ c0.opts.blockSize) {file : Bytes} {age : Option Nat}
    (hage : Distinct age c0.opts.window (nblocks file c0.opts.payload)) (stops : Bool) {X : Fetch} {top : Nat}
    (h : FInv v c0 file X top) (e : FetchEv) : ∃ top', FInv v c0 file (X.step v stops c0.opts.payload age e) top' := by
  have hpb := payload_bounds hbs
  obtain ⟨h1, h2, h3, h4, h5, h6, h7⟩ := id h
  cases e with
  | tick t io =>
    simp only [Fetch.step]
    cases hc : X.conn with
    | none => exact ⟨top, h.server stops _ top (Nat.le_refl _) h4 (by rw [hc]; intro c hc; cases hc) (by rw [hc]; intro d hd; cases hd)⟩
    | some c =>
      obtain ⟨s, m, w, hcd⟩ := h5 c hc
      by_cases hact : c.active = true
      · obtain ⟨s', w', g1, g2, g3, g4, -⟩ := down_tick he0 hbs hcd h3 t io
        refine ⟨w'.top, h.server stops _ w'.top g2 g3 ?_ ?_⟩
        · rw [hc]
          simp only [Srv.lifeStep, hact, if_true]
          intro c' hc'; cases hc'
          exact ⟨s', m, w', g1⟩
        · rw [hc]
          simp only [Srv.lifeStep, hact, if_true]
          exact g4
      · refine ⟨top, h.server stops _ top (Nat.le_refl _) h4 ?_ ?_⟩
        · rw [hc]
          simp only [Srv.lifeStep, hact, Bool.false_eq_true, if_false]
          intro c' hc'; cases hc'
          exact ⟨s, m, w, hcd⟩
        · rw [hc]
          simp only [Srv.lifeStep, hact, Bool.false_eq_true, if_false]
          intro d hd; cases hd
  | check t io =>
    simp only [Fetch.step]
    refine ⟨top, h.server stops _ top (Nat.le_refl _) h4 ?_ ?_⟩
    · cases hc : X.conn with
      | none => intro c hc; cases hc
      | some c =>
        intro c' hc'
        simp only [Srv.lifeStep] at hc'
        split at hc'
        · cases hc'
        · cases hc'; exact h5 c hc
    · cases hc : X.conn with
      | none => intro d hd; cases hd
      | some c =>
        obtain ⟨s, m, w, hcd⟩ := h5 c hc
        exact timeout_mail hcd.enc t io file _ _ _ _
  | drop =>
    simp only [Fetch.step]
    refine ⟨top, h.server stops _ top (Nat.le_refl _) h4 ?_ ?_⟩
    · cases hc : X.conn <;> (intro c hc; cases hc)
    · cases hc : X.conn <;> (intro d hd; cases hd)
  | arrive i t io =>
    simp only [Fetch.step]
    split
    · rename_i x hx
      split
      · rename_i hin
        have hx' := h7 x (List.mem_of_getElem? hx)
        cases hc : X.conn with
        | none => exact ⟨top, h.server stops _ top (Nat.le_refl _) h4 (by rw [hc]; intro c hc; cases hc) (by rw [hc]; intro d hd; cases hd)⟩
        | some c =>
          obtain ⟨s, m, w, hcd⟩ := h5 c hc
          obtain ⟨s', m', w', g1, -⟩ := down_recv he0 hbs hcd h3 hage hx'.2 hx'.1 hin t io
          refine ⟨top, h.server stops _ top (Nat.le_refl _) h4 ?_ ?_⟩
          · rw [hc]
            simp only [Srv.lifeStep]
            split
            · intro c' hc'; cases hc'; exact ⟨s, m, w, hcd⟩
            · intro c' hc'; cases hc'; exact ⟨s', m', w', g1⟩
          · rw [hc]
            simp only [Srv.lifeStep]
            split
            · intro d hd; cases hd
            · rw [(handle_reader v hcd.side t x.bytes io).2.2.2]
              intro d hd; cases hd
      · exact ⟨top, h⟩
    · exact ⟨top, h⟩
  | hear i =>
    simp only [Fetch.step]
    split
    · rename_i x hx
      split
      · rename_i hin
        have hx' := h6 x (List.mem_of_getElem? hx)
        rcases hear_data hage hpb.1 hx'.1 hin hx'.2 h1 h3 h4 with g | ⟨g1, g2, g3, g4⟩
        · refine ⟨top, ?_⟩
          rw [g]
          exact h
        · refine ⟨top, ⟨by simp only [g1, g3], by simp only [g1]; exact g4, by simp only [g1]; exact g2, h4, ?_, ?_, ?_⟩⟩
          · intro c hc
            obtain ⟨s, m, w, k1, k2, k3, k4, k5, k6⟩ := h5 c hc
            exact ⟨s, m, w, k1, k2, k3, k4, by simp only [g1]; omega, k6⟩
          · intro y hy
            exact ⟨by simp only [g1]; have := (h6 y hy).1; omega, (h6 y hy).2⟩
          · intro y hy
            exact ⟨by simp only [g1]; have := (h7 y hy).1; omega, (h7 y hy).2⟩
      · exact ⟨top, h⟩
    · exact ⟨top, h⟩
  | ack =>
    refine ⟨top, h1, h2, h3, h4, h5, h6, ?_⟩
    intro m hm
    simp only [Fetch.step, List.mem_cons] at hm
    rcases hm with rfl | hm
    · exact ⟨Nat.le_refl _, .inl rfl⟩
    · exact h7 m hm
  | quit text =>
    refine ⟨top, h1, h2, h3, h4, h5, h6, ?_⟩
    intro m hm
    simp only [Fetch.step, List.mem_cons] at hm
    rcases hm with rfl | hm
    · exact ⟨Nat.le_refl _, .inr ⟨text, rfl⟩⟩
    · exact h7 m hm

theorem FInv.run {v : Srv S} {c0 : Conn} (he0 : c0.enc = none) (hbs : 512 ≤ c0.opts.blockSize) {file : Bytes} {age : Option Nat}
    (hage : Distinct age c0.opts.window (nblocks file c0.opts.payload)) (stops : Bool) (es : List FetchEv) {X : Fetch} {top : Nat}
    (h : FInv v c0 file X top) : ∃ top', FInv v c0 file (X.run v stops c0.opts.payload age es) top' := by
  induction es generalizing X top with
  | nil => exact ⟨top, h⟩
  | cons e r ih =>
    obtain ⟨top', h'⟩ := h.step he0 hbs hage stops e
    exact ih h'

/-- The first state. -/
theorem FInv.init {v : Srv S} (hb : 512 ≤ v.cfg.maxBlock ∧ v.cfg.maxBlock ≤ 65535) (hw : 1 ≤ v.cfg.maxWindow ∧ v.cfg.maxWindow ≤ 65535)
    {t : Nat} {dg : Bytes} {io : NewIo} {c : Conn} {out : List Bytes} (h : (v.newConn t dg io).result = .ok (c, out)) (he : c.enc = none)
    {file : Bytes} (hside : c.side = .reader ⟨Reader.new (v.kind c.opts.window) file c.opts.payload c.opts.window, 0, false, false⟩) :
    FInv v c file (Fetch.init c out) 0 := by
  obtain ⟨-, -, -, -, -, hout⟩ := plain_new hb hw h he
  refine ⟨by simp [Fetch.init, bytesIn], ?_, Nat.le_refl _, Nat.zero_le _, ?_, ?_, ?_⟩
  · simp only [Fetch.init, Bool.false_eq_true, false_iff]
    exact (Nat.succ_ne_zero _).symm
  · intro c' hc'
    cases hc'
    refine ⟨_, Mapper.new, Window.init, rfl, he, hside, SInv.init (c := v.transfer c) ?_, Nat.le_refl _, rfl⟩
    intro hk
    unfold Srv.kind at hk
    split at hk
    · cases hk
    · split at hk
      · assumption
      · cases hk
  · intro m hm
    simp only [Fetch.init, List.mem_map] at hm
    obtain ⟨d, hd, rfl⟩ := hm
    refine ⟨Nat.le_refl _, fun hd2 => ?_⟩
    exfalso
    rcases hout with rfl | rfl | ⟨x, rfl⟩
    · cases hd
    · simp only [List.mem_singleton] at hd
      subst hd
      simp [ackPacket] at hd2
    · simp only [List.mem_singleton] at hd
      subst hd
      simp at hd2
  · intro m hm; cases hm

/-! ### Completion -/

theorem inTime_self (age : Option Nat) (n : Nat) : inTime age n n = true := by
  unfold inTime
  cases age with
  | none => rfl
  | some l => simp

theorem active_side {c : Conn} {s : SendSt} (hs : c.side = .reader s) : c.active = true ↔ s.failed = false ∧ s.finished = false := by
  obtain ⟨o, e, sd, a, b, m⟩ := c
  simp only at hs
  subst hs
  simp [Conn.active, Conn.failed, Conn.finished]

/-- The peer acknowledges what it has and the server hears of it. -/
theorem round_ack {v : Srv S} {c0 : Conn} (he0 : c0.enc = none) (hbs : 512 ≤ c0.opts.blockSize) {file : Bytes} {age : Option Nat}
    (hage : Distinct age c0.opts.window (nblocks file c0.opts.payload)) (stops : Bool) {X : Fetch} {top : Nat}
    (h : FInv v c0 file X top) {c : Conn} (hc : X.conn = some c) (hact : c.active = true) :
    ∃ c' s m w, (X.run v stops c0.opts.payload age [.ack, .arrive 0 0 ⟨.all, true, 0⟩]).peer = X.peer ∧
      (X.run v stops c0.opts.payload age [.ack, .arrive 0 0 ⟨.all, true, 0⟩]).conn = some c' ∧
      ConnDown v c0 file X.peer.blocks top c' s m w ∧ w.base = X.peer.blocks ∧ s.failed = false ∧
      (X.peer.blocks < nblocks file c0.opts.payload → s.finished = false) ∧
      (X.peer.blocks = nblocks file c0.opts.payload → s.finished = true) := by
  obtain ⟨s, m, w, hcd⟩ := h.conn c hc
  obtain ⟨ha1, ha2⟩ := (active_side hcd.side).mp hact
  have hdeaf : c.deaf = false := by
    have := hcd.side
    obtain ⟨o, e, sd, a, b, m⟩ := c
    simp only at this
    subst this
    exact ha2
  obtain ⟨s', m', w', g1, g2⟩ := down_recv he0 hbs hcd h.le hage (x := ⟨ackPacket X.peer.blocks, X.peer.blocks⟩) (.inl rfl) (Nat.le_refl _)
    (inTime_self age _) 0 ⟨.all, true, 0⟩
  obtain ⟨g2, g3⟩ := g2 rfl
  have hbase : w'.base = X.peer.blocks := by rw [g3]; have := hcd.base; simp only; omega
  refine ⟨_, s', m', w', ?_, ?_, g1, hbase, by rw [g2]; exact ha1, ?_, ?_⟩
  · simp only [Fetch.run, List.foldl, Fetch.step, List.getElem?_cons_zero, inTime_self, if_true, Fetch.server]
  · simp only [Fetch.run, List.foldl, Fetch.step, List.getElem?_cons_zero, inTime_self, if_true, Fetch.server, hc, Srv.lifeStep, hdeaf,
      Bool.and_false, Bool.false_eq_true, if_false]
  · intro hlt
    cases hf : s'.finished with
    | false => rfl
    | true =>
      have : w'.base = nblocks file c0.opts.payload := g1.inv.fin hf
      omega
  · intro heq
    rcases g1.inv.done (by rw [hbase]; exact heq) with hf | hf
    · exact hf
    · rw [g2, ha1] at hf; cases hf

theorem Fetch.run_append (v : Srv S) (stops : Bool) (bs : Nat) (age : Option Nat) (X : Fetch) (es fs : List FetchEv) :
    X.run v stops bs age (es ++ fs) = (X.run v stops bs age es).run v stops bs age fs := List.foldl_append

theorem completes {v : Srv S} {c0 : Conn} (he0 : c0.enc = none) (hbs : 512 ≤ c0.opts.blockSize) (hwin : 1 ≤ c0.opts.window) {file : Bytes}
    {age : Option Nat} (hage : Distinct age c0.opts.window (nblocks file c0.opts.payload)) (stops : Bool) (n : Nat) :
    ∀ {X : Fetch} {top : Nat}, FInv v c0 file X top → n + X.peer.blocks = nblocks file c0.opts.payload →
    ∀ c, X.conn = some c → c.active = true →
    ∃ es c', (X.run v stops c0.opts.payload age es).peer.blocks = nblocks file c0.opts.payload ∧
      (X.run v stops c0.opts.payload age es).conn = some c' ∧ c'.finished = true ∧ c'.failed = false := by
  have hpb := payload_bounds hbs
  have hside : ∀ {c' : Conn} {s : SendSt}, c'.side = .reader s → c'.finished = s.finished ∧ c'.failed = s.failed := by
    intro c' s hs
    obtain ⟨o, e, sd, a, b, m⟩ := c'
    simp only at hs
    subst hs
    exact ⟨rfl, rfl⟩
  induction n with
  | zero =>
    intro X top h hn c hc hact
    obtain ⟨c', s, m, w, g1, g2, g3, g4, g5, -, g7⟩ := round_ack he0 hbs hage stops h hc hact
    refine ⟨_, c', by rw [g1]; omega, g2, ?_, ?_⟩
    · rw [(hside g3.side).1]; exact g7 (by omega)
    · rw [(hside g3.side).2]; exact g5
  | succ n ih =>
    intro X top h hn c hc hact
    obtain ⟨c1, s1, m1, w1, g1, g2, g3, g4, g5, g6, -⟩ := round_ack he0 hbs hage stops h hc hact
    have hlt : X.peer.blocks < nblocks file c0.opts.payload := by omega
    have hact1 : c1.active = true := (active_side g3.side).mpr ⟨g5, g6 hlt⟩
    generalize hX1 : X.run v stops c0.opts.payload age [.ack, .arrive 0 0 ⟨.all, true, 0⟩] = X1 at g1 g2
    obtain ⟨top1, h1⟩ := h.run he0 hbs hage stops [.ack, .arrive 0 0 ⟨.all, true, 0⟩]
    rw [hX1] at h1
    -- the server sends the next block
    have hdue : c1.retryDue (c1.lastSent + c1.opts.retry * c1.mult + 1) = true := by
      unfold Conn.retryDue
      simp only [decide_eq_true_eq]
      omega
    obtain ⟨s2, w2, k1, k2, k3, k4, k5⟩ := down_tick he0 hbs g3 h.le (c1.lastSent + c1.opts.retry * c1.mult + 1) ⟨false, .sent, 0⟩
    obtain ⟨k5, k6, k7⟩ := k5 rfl
    have k7 := k7 rfl hdue g4.symm hlt hwin
    generalize hX2 : X1.step v stops c0.opts.payload age (.tick (c1.lastSent + c1.opts.retry * c1.mult + 1) ⟨false, .sent, 0⟩) = X2
    obtain ⟨top2, h2⟩ := h1.step he0 hbs hage stops (.tick (c1.lastSent + c1.opts.retry * c1.mult + 1) ⟨false, .sent, 0⟩)
    rw [hX2] at h2
    have hX2c : X2.conn = some (v.sendBlock c1 (c1.lastSent + c1.opts.retry * c1.mult + 1) ⟨false, .sent, 0⟩).1 := by
      rw [← hX2]
      simp only [Fetch.step, Fetch.server, g2, Srv.lifeStep, hact1, if_true]
    have hX2p : X2.peer = X.peer := by
      rw [← hX2, ← g1]
      rfl
    have hX2m : X2.toPeer = ⟨dataPacket (X.peer.blocks + 1) (block file c0.opts.payload (X.peer.blocks + 1)), X.peer.blocks⟩ :: X1.toPeer := by
      rw [← hX2]
      simp only [Fetch.step, Fetch.server, g2, Srv.lifeStep, hact1, if_true, k7, Option.toList_some, List.map_cons, List.map_nil, g1,
        List.cons_append, List.nil_append]
    -- the peer takes it
    generalize hX3 : X2.step v stops c0.opts.payload age (.hear 0) = X3
    obtain ⟨top3, h3⟩ := h2.step he0 hbs hage stops (.hear 0)
    rw [hX3] at h3
    have hnd : X.peer.done = false := by
      cases hd : X.peer.done with
      | false => rfl
      | true => have := h.done.mp hd; omega
    have hX3b : X3.peer.blocks = X.peer.blocks + 1 := by
      rw [← hX3]
      simp only [Fetch.step, hX2m, List.getElem?_cons_zero, hX2p, inTime_self, if_true, Receiver.hear, dataPacket_head, hnd, and_self]
    have hX3c : X3.conn = X2.conn := by
      rw [← hX3]
      simp only [Fetch.step, hX2m, List.getElem?_cons_zero, hX2p, inTime_self, if_true]
    obtain ⟨es, c', q1, q2, q3, q4⟩ := ih h3 (by omega) _ (by rw [hX3c]; exact hX2c)
      ((active_side k1.side).mpr ⟨by rw [k5]; exact g5, by rw [k6]; exact g6 hlt⟩)
    refine ⟨[.ack, .arrive 0 0 ⟨.all, true, 0⟩] ++
      ([.tick (c1.lastSent + c1.opts.retry * c1.mult + 1) ⟨false, .sent, 0⟩, .hear 0] ++ es), c', ?_, ?_, q3, q4⟩
    · rw [Fetch.run_append, hX1, Fetch.run_append]
      rw [show X1.run v stops c0.opts.payload age [.tick (c1.lastSent + c1.opts.retry * c1.mult + 1) ⟨false, .sent, 0⟩, .hear 0] = X3 by
        rw [← hX3, ← hX2]; rfl]
      exact q1
    · rw [Fetch.run_append, hX1, Fetch.run_append]
      rw [show X1.run v stops c0.opts.payload age [.tick (c1.lastSent + c1.opts.retry * c1.mult + 1) ⟨false, .sent, 0⟩, .hear 0] = X3 by
        rw [← hX3, ← hX2]; rfl]
      exact q2

/-! ### C80 -/

theorem reader_new {v : Srv S} {t : Nat} {dg : Bytes} {io : NewIo} {c : Conn} {out : List Bytes} {r : Request} {name file : Bytes} {size : Option Nat}
    (h : (v.newConn t dg io).result = .ok (c, out)) (hreq : v.requestOf dg = some (false, r)) (hname : normalizeName r.fileName = some name)
    (hfile : io.openRead name = some (size, file)) :
    c.side = .reader ⟨Reader.new (v.kind c.opts.window) file c.opts.payload c.opts.window, 0, false, false⟩ := by
  obtain ⟨write, r', used, keys, name', kind, g1, -, g3, -, g5, -⟩ := newConn_ok h
  rw [hreq] at g1
  cases g1
  rw [hname] at g3
  cases g3
  simp only [Bool.false_eq_true, if_false] at g5
  obtain ⟨size', file', g5, -, g6⟩ := g5
  rw [hfile] at g5
  cases g5
  exact g6

theorem bytesIn_take (file : Bytes) (bs n : Nat) : file.take (bytesIn file bs n) = file.take (n * bs) := by
  unfold bytesIn
  rw [Nat.min_comm]
  simp [List.take_eq_take_iff]

/-- **C80**, what arrives: the server accepted the read request `dg` for the file `file`, and the connection is not encrypted. A peer which
follows the RFCs and uses the block and window size the server has confirmed has at all times received a prefix of the file in whole blocks,
in any schedule and with any losses, duplicates, delays and reorderings; when it considers the transfer complete, it has the file; and when
the server considers the transfer complete, the peer has the file. -/
theorem c80_download (v : Srv S) (hb : 512 ≤ v.cfg.maxBlock ∧ v.cfg.maxBlock ≤ 65535) (hw : 1 ≤ v.cfg.maxWindow ∧ v.cfg.maxWindow ≤ 65535)
    (t : Nat) (dg : Bytes) (io : NewIo) (c : Conn) (out : List Bytes) (h : (v.newConn t dg io).result = .ok (c, out)) (he : c.enc = none)
    (r : Request) (name file : Bytes) (size : Option Nat) (hreq : v.requestOf dg = some (false, r))
    (hname : normalizeName r.fileName = some name) (hfile : io.openRead name = some (size, file))
    (age : Option Nat) (hage : Distinct age (windowSize out) (file.length / blockSize out + 1)) (stops : Bool) (es : List FetchEv)
    (X : Fetch) (hX : X = (Fetch.init c out).run v stops (blockSize out) age es) :
    X.peer.out = file.take (X.peer.blocks * blockSize out) ∧ (X.peer.done = true → X.peer.out = file) ∧
    (∀ c', X.conn = some c' → c'.finished = true → X.peer.done = true) := by
  obtain ⟨p1, p2, p3, p4, p5, -⟩ := plain_new hb hw h he
  have h0 := FInv.init hb hw h he (reader_new h hreq hname hfile)
  rw [p4, ← p1] at hage hX ⊢
  rw [p5] at hage
  have hpb := payload_bounds p2
  obtain ⟨top, h1⟩ := h0.run he p2 (age := age) hage stops es
  rw [← hX] at h1
  refine ⟨by rw [h1.out, bytesIn_take], ?_, ?_⟩
  · intro hd
    rw [h1.out, h1.done.mp hd, bytesIn_nblocks _ _ _ hpb.1 (Nat.le_refl _)]
    exact List.take_of_length_le (l := file) (Nat.le_refl _)
  · intro c' hc' hf
    obtain ⟨s, m, w, k1, k2, k3, k4, k5, k6⟩ := h1.conn c' hc'
    have hs : s.finished = true := by
      obtain ⟨o, e, sd, a, b, m⟩ := c'
      simp only at k3
      subst k3
      exact hf
    have hbase : w.base = nblocks file c.opts.payload := k4.fin hs
    apply h1.done.mpr
    have := h1.le
    have := h1.top_le
    omega

/-- **C80**, completion: from every state of such a transfer in which the server's connection is still active, it can be completed on both
sides, even if everything under way is lost: there is always a way to go on in which nothing more is lost and the peer only acknowledges what it
has. -/
theorem c80_completes (v : Srv S) (hb : 512 ≤ v.cfg.maxBlock ∧ v.cfg.maxBlock ≤ 65535) (hw : 1 ≤ v.cfg.maxWindow ∧ v.cfg.maxWindow ≤ 65535)
    (t : Nat) (dg : Bytes) (io : NewIo) (c : Conn) (out : List Bytes) (h : (v.newConn t dg io).result = .ok (c, out)) (he : c.enc = none)
    (r : Request) (name file : Bytes) (size : Option Nat) (hreq : v.requestOf dg = some (false, r))
    (hname : normalizeName r.fileName = some name) (hfile : io.openRead name = some (size, file))
    (age : Option Nat) (hage : Distinct age (windowSize out) (file.length / blockSize out + 1)) (stops : Bool) (es : List FetchEv)
    (X : Fetch) (hX : X = (Fetch.init c out).run v stops (blockSize out) age es) (c1 : Conn) (hc1 : X.conn = some c1) (hact : c1.active = true) :
    ∃ fs c2, (X.lost.run v stops (blockSize out) age fs).peer.done = true ∧ (X.lost.run v stops (blockSize out) age fs).peer.out = file ∧
      (X.lost.run v stops (blockSize out) age fs).conn = some c2 ∧ c2.finished = true ∧ c2.failed = false := by
  obtain ⟨p1, p2, p3, p4, p5, -⟩ := plain_new hb hw h he
  have h0 := FInv.init hb hw h he (reader_new h hreq hname hfile)
  rw [p4, ← p1] at hage hX ⊢
  rw [p5] at hage
  obtain ⟨top, h1⟩ := h0.run he p2 (age := age) hage stops es
  rw [← hX] at h1
  replace h1 : FInv v c file X.lost top := by
    obtain ⟨g1, g2, g3, g4, g5, g6, g7⟩ := h1
    exact ⟨g1, g2, g3, g4, g5, (by intro m hm; cases hm), (by intro m hm; cases hm)⟩
  have hle : X.peer.blocks ≤ nblocks file c.opts.payload := Nat.le_trans h1.le h1.top_le
  obtain ⟨fs, c2, q1, q2, q3, q4⟩ := completes he p2 p3 (age := age) hage stops (nblocks file c.opts.payload - X.peer.blocks) h1 (by show _ - _ + X.peer.blocks = _; omega) c1 hc1 hact
  obtain ⟨top', h2⟩ := h1.run he p2 (age := age) hage stops fs
  have hd := h2.done.mpr q1
  refine ⟨fs, c2, hd, ?_, q2, q3, q4⟩
  rw [h2.out, q1, bytesIn_nblocks _ _ _ (payload_bounds p2).1 (Nat.le_refl _)]
  exact List.take_of_length_le (l := file) (Nat.le_refl _)

/-- When is a connection unencrypted: the server has no private key, and the request carries no encryption option. -/
theorem c80_plain (v : Srv S) (hkey : v.cfg.privateKey = none) (t : Nat) (dg : Bytes) (io : NewIo) (c : Conn) (out : List Bytes)
    (h : (v.newConn t dg io).result = .ok (c, out)) (write : Bool) (r : Request) (hreq : v.requestOf dg = some (write, r))
    (hr : r.exts .encryptionLevel = none) : c.enc = none := by
  obtain ⟨write', r', used, keys, name, kind, g1, g2, -, g4, -⟩ := newConn_ok h
  rw [hreq] at g1
  cases g1
  have ho : (v.openRequest dg).1 = none := by
    unfold Srv.openRequest
    rw [hkey]
  obtain ⟨u0, o0, hp, -, -⟩ := srvNegotiate_ok g2
  obtain ⟨u1, o1, cl, -, hcl, -, hcase⟩ := srvParse_ok hp
  rw [hr] at hcl
  have hcl : cl = none := by
    simp only [optParse] at hcl
    cases hcl
    rfl
  rcases hcase with ⟨-, -, -, -, hk⟩ | ⟨l, _, _, hl, _⟩
  · rw [g4, hk]; exact ho
  · rw [hcl] at hl; cases hl

end Tftp.Rfc

import Verif.RfcDown
/-
C81: a peer which follows the RFCs uploads to the server (Rfc.lean).
-/
namespace Tftp.Rfc
open Tftp Spec

variable {S : SigScheme}

/-- A data packet at the server's connection. -/
theorem up_data {c : Cfg} {file : Bytes} {seen t : Nat} {r : RecvSt} {dg : Bytes} (hbs : 0 < c.bs) (hrole : c.receiver = .serverSingle)
    (h : RInv c file seen r)
    (hd : c.codec.dec dg = some (Packet.data (UInt16.ofNat (t % 65536)) (block file c.bs t)).toBytes)
    (ht : 1 ≤ t) (htN : t ≤ nblocks file c.bs) (hi : (r.w.mapper.index (t % 65536)).2 = t)
    (hm : (r.w.mapper.index (t % 65536)).1.Inv (max seen t)) (ioOk sendOk : Bool) (nonce : Nat) (q : RecvSt × Option Dgram)
    (hq : q = serverRecv c r dg (if ioOk then .all else .err) sendOk nonce) :
    RInv c file (max seen t) q.1 ∧ r.w.written ≤ q.1.w.written ∧
    (∀ d, q.2 = some d → (∃ e, c.emit nonce none (.error e []) = some d) ∨
      c.emit nonce (some q.1.w.written) (.ack (UInt16.ofNat (q.1.w.written % 65536))) = some d) ∧
    (ioOk = true → sendOk = true → r.failed = false → file.length ≤ c.max → q.1.failed = false ∧
      (t = r.w.written + 1 → q.1.w.written = t ∧
        (t = nblocks file c.bs → q.2 = c.emit nonce (some t) (.ack (UInt16.ofNat (t % 65536))))) ∧
      (t ≠ r.w.written + 1 → q.1.w.written = r.w.written ∧ q.1.finished = r.finished ∧
        q.2 = c.emit nonce (some r.w.written) (.ack (UInt16.ofNat (r.w.written % 65536))))) := by
  have hw := write_cases (t := t) h hi ioOk
  have hrd := recv_data hbs h hd ht htN hi hm ioOk sendOk nonce
  have hrr : recvRecv c r dg (if ioOk then .all else .err) sendOk nonce = serverRecv c r dg (if ioOk then .all else .err) sendOk nonce := by
    unfold recvRecv; rw [hrole]
  rw [hrr, ← hq] at hrd
  refine ⟨hrd.1, hrd.2.1, ?_⟩
  clear hrd hrr
  subst hq
  have htot := h.total_le
  by_cases hnext : t = r.w.written + 1
  · rw [if_pos hnext] at hw
    have hlen := block_length file c.bs t ht
    rw [show t - 1 = r.w.written by omega] at hlen
    have hmono := bytesIn_mono file c.bs (i := r.w.written) (j := t) (by omega)
    have hbl : bytesIn file c.bs t ≤ file.length := by unfold bytesIn; omega
    cases ioOk with
    | false =>
      simp only [Bool.false_eq_true, if_false] at hw ⊢
      simp only [serverRecv, hd, decode_data, toNat_ofNat_mod, hw]
      refine ⟨?_, (fun h => nomatch h)⟩
      intro d hd'
      split at hd'
      · exact .inl ⟨_, hd'⟩
      · cases hd'
    | true =>
      simp only [if_true] at hw ⊢
      simp only [serverRecv, hd, decode_data, toNat_ofNat_mod, hw]
      by_cases hmax : r.total + (block file c.bs t).length > c.max
      · simp only [hmax, decide_true, if_true]
        refine ⟨?_, ?_⟩
        · intro d hd'
          split at hd'
          · exact .inl ⟨_, hd'⟩
          · cases hd'
        · intro _ _ _ hfit
          omega
      · simp only [hmax, decide_false, Bool.false_eq_true, if_false]
        refine ⟨?_, ?_⟩
        · intro d hd'
          split at hd'
          · rename_i hc
            right
            simp only [hc, if_true, hd', Option.isSome_some]
          · cases hd'
        · intro _ hs hf _
          refine ⟨?_, fun _ => ⟨?_, ?_⟩, fun hne => absurd hnext hne⟩
          · repeat' split
            all_goals exact hf
          · repeat' split
            all_goals rfl
          · intro hlast
            have hshort := (block_short_iff file c.bs t hbs ht htN).mpr hlast
            have : ackDue c r.lastAck t (some (block file c.bs t).length) = true := by
              unfold ackDue
              simp only [Option.getD_some, hshort, decide_true, Bool.or_true]
            simp only [this, hs, Bool.and_self, if_true]
  · rw [if_neg hnext] at hw
    simp only [serverRecv, hd, decode_data, toNat_ofNat_mod, hw, Bool.false_eq_true, if_false]
    refine ⟨?_, ?_⟩
    · intro d hd'
      split at hd'
      · rename_i hc
        right
        simp only [hc, if_true, hd', Option.isSome_some]
      · cases hd'
    · intro _ hs hf _
      refine ⟨by (repeat' split) <;> exact hf, fun h => absurd h hnext, fun _ => ⟨by (repeat' split) <;> rfl, by (repeat' split) <;> rfl, ?_⟩⟩
      have : ackDue c r.lastAck r.w.written none = true := by
        unfold ackDue
        simp only [Option.getD_none, hbs, decide_true, Bool.or_true]
      simp only [this, hs, Bool.and_self, if_true]

/-! ### The invariant -/

/-- A datagram of the peer: a block of the window at the time it was sent, or an error packet. -/
def BlockMail (file : Bytes) (bs W : Nat) (m : Mail) : Prop :=
  (∃ k, m.bytes = dataPacket k (block file bs k) ∧ m.stamp < k ∧ k ≤ m.stamp + W ∧ k ≤ nblocks file bs) ∨ ∃ text, m.bytes = [0, 5] ++ text

/-- A datagram of the server: if it is an acknowledgement, then of a block the server had stored. -/
def DoneMail (W written : Nat) (m : Mail) : Prop :=
  m.bytes.take 2 = [0, 4] → ∃ k, m.bytes = ackPacket k ∧ m.stamp ≤ k ∧ k ≤ m.stamp + W ∧ k ≤ written

structure ConnUp (v : Srv S) (c0 : Conn) (file : Bytes) (seen written : Nat) (c : Conn) (s : RecvSt) : Prop where
  opts : c.opts = c0.opts
  enc : c.enc = none
  side : c.side = .writer s
  inv : RInv (v.transfer c0) file seen s
  written : s.w.written = written

structure UInv (v : Srv S) (c0 : Conn) (file : Bytes) (X : Store) (seen written : Nat) : Prop where
  stored : X.stored = file.take (bytesIn file c0.opts.payload written)
  confirmed : X.confirmed ≤ written
  le : written ≤ seen
  room : seen ≤ X.confirmed + c0.opts.window
  seen_le : seen ≤ nblocks file c0.opts.payload
  conn : ∀ c, X.conn = some c → ∃ s, ConnUp v c0 file seen written c s
  toPeer : ∀ m ∈ X.toPeer, m.stamp ≤ X.confirmed ∧ DoneMail c0.opts.window written m
  toServer : ∀ m ∈ X.toServer, m.stamp ≤ X.confirmed ∧ BlockMail file c0.opts.payload c0.opts.window m

theorem DoneMail.mono {W n n' m} (h : DoneMail W n m) (hl : n ≤ n') : DoneMail W n' m := by
  intro hd
  obtain ⟨k, h1, h2, h3, h4⟩ := h hd
  exact ⟨k, h1, h2, h3, by omega⟩

theorem error_not_ack {v : Srv S} {c : Conn} (he : c.enc = none) {n : Nat} {e : ErrorCode} {d : Bytes}
    (hd : (v.transfer c).codec.enc n (Packet.error e []).toBytes = some d) : d.take 2 ≠ [0, 4] := by
  rw [plain_enc he] at hd
  cases hd
  cases e <;> decide

theorem handle_writer (v : Srv S) {c : Conn} {s : RecvSt} (hs : c.side = .writer s) (t : Nat) (dg : Bytes) (io : RecvIo) :
    (v.handle c t dg io).1.opts = c.opts ∧ (v.handle c t dg io).1.enc = c.enc ∧
    (v.handle c t dg io).1.side = .writer (serverRecv (v.transfer c) s dg io.file io.sendOk io.nonce).1 ∧
    (v.handle c t dg io).2 = (serverRecv (v.transfer c) s dg io.file io.sendOk io.nonce).2.map (·.bytes) := by
  obtain ⟨o, e, sd, a, b, m⟩ := c
  simp only at hs
  subst hs
  exact ⟨rfl, rfl, rfl, rfl⟩

/-- A block reaches the connection. -/
theorem up_block {v : Srv S} {c0 : Conn} (he0 : c0.enc = none) (hbs : 512 ≤ c0.opts.blockSize) {file : Bytes} {seen written confirmed : Nat} {c : Conn}
    {s : RecvSt} (h : ConnUp v c0 file seen written c s) (hcw : confirmed ≤ written) (hws : written ≤ seen) (hsc : seen ≤ confirmed + c0.opts.window)
    (hsn : seen ≤ nblocks file c0.opts.payload)
    {age : Option Nat} (hage : Distinct age c0.opts.window (nblocks file c0.opts.payload))
    {x : Mail} {k : Nat} (hk : x.bytes = dataPacket k (block file c0.opts.payload k)) (hk1 : x.stamp < k) (hk2 : k ≤ x.stamp + c0.opts.window)
    (hk3 : k ≤ nblocks file c0.opts.payload) (hst : x.stamp ≤ confirmed) (hin : inTime age x.stamp confirmed = true)
    (t : Nat) (io : RecvIo) (hio : io.file = .all ∨ io.file = .err) :
    ∃ s' seen' written', ConnUp v c0 file seen' written' (v.handle c t x.bytes io).1 s' ∧ written ≤ written' ∧ written' ≤ seen' ∧
      seen' ≤ confirmed + c0.opts.window ∧ seen' ≤ nblocks file c0.opts.payload ∧
      (∀ d ∈ (v.handle c t x.bytes io).2.toList, DoneMail c0.opts.window written' ⟨d, confirmed⟩) ∧
      (io.file = .all → io.sendOk = true → s.failed = false → file.length ≤ v.cfg.maxFileSize → s'.failed = false ∧
        (k = written + 1 → written' = k ∧ (k = nblocks file c0.opts.payload → (v.handle c t x.bytes io).2 = some (ackPacket k))) ∧
        (k ≠ written + 1 → written' = written ∧ (v.handle c t x.bytes io).2 = some (ackPacket written))) := by
  obtain ⟨ho, he, hs, hinv, hwr⟩ := h
  have hpb := payload_bounds hbs
  obtain ⟨g1, g2, g3, g4⟩ := handle_writer v hs t x.bytes io
  have e1 : v.transfer c = v.transfer c0 := transfer_eq v ho (by rw [he0]; exact he)
  rw [e1] at g3 g4
  have hfile : io.file = if decide (io.file = .all) then .all else .err := by
    rcases hio with h | h <;> rw [h] <;> rfl
  have hfresh : (seen ≤ k + 10000 ∨ nblocks file c0.opts.payload ≤ 55535) ∧
      (k ≤ seen + 10000 ∨ nblocks file c0.opts.payload ≤ 55535) := by
    unfold Distinct at hage
    unfold inTime at hin
    cases age with
    | none => exact ⟨.inr hage, .inr hage⟩
    | some l =>
      simp only [decide_eq_true_eq] at hin hage
      exact ⟨.inl (by omega), .inl (by omega)⟩
  obtain ⟨hi, hm⟩ := s.w.mapper.index_fresh seen k (nblocks file c0.opts.payload) hinv.mapper hsn hk3 hfresh.1 hfresh.2
  have hd : (v.transfer c0).codec.dec x.bytes = some (Packet.data (UInt16.ofNat (k % 65536)) (block file c0.opts.payload k)).toBytes := by
    rw [plain_dec he0, data_bytes, hk]
  have main := up_data (c := v.transfer c0) hpb.1 rfl hinv hd (by omega) hk3 hi hm (decide (io.file = .all)) io.sendOk io.nonce _ rfl
  rw [← hfile] at main
  generalize serverRecv (v.transfer c0) s x.bytes io.file io.sendOk io.nonce = q at main g3 g4
  obtain ⟨m1, m2, m3, m4⟩ := main
  have hemit : ∀ n j, (v.transfer c0).emit n (some j) (.ack (UInt16.ofNat (j % 65536))) = some ⟨some j, ackPacket j⟩ := by
    intro n j
    unfold Cfg.emit
    rw [plain_enc he0, ack_bytes]
    rfl
  have hs' := m1.seen
  refine ⟨q.1, max seen k, q.1.w.written, ⟨by rw [g1]; exact ho, by rw [g2]; exact he, g3, m1, rfl⟩, by omega, hs', by omega, by omega, ?_, ?_⟩
  · intro d hd' hd2
    rw [g4] at hd'
    simp only [Option.mem_toList, Option.map_eq_some_iff] at hd'
    obtain ⟨y, hy, rfl⟩ := hd'
    rcases m3 y hy with ⟨e, hy⟩ | hy
    · exact absurd hd2 (error_not_ack he0 (emit_enc hy))
    · rw [hemit] at hy
      cases hy
      exact ⟨_, rfl, by simp only; omega, by simp only; omega, Nat.le_refl _⟩
  · intro a1 a2 a3 a4
    obtain ⟨b1, b2, b3⟩ := m4 (by rw [a1]; rfl) a2 a3 a4
    rw [hwr] at b2 b3
    refine ⟨b1, fun hn => ⟨(b2 hn).1, fun hl => ?_⟩, fun hn => ⟨(b3 hn).1, ?_⟩⟩
    · rw [g4, (b2 hn).2 hl, hemit]; rfl
    · rw [g4, (b3 hn).2.2, hemit]; rfl

theorem up_quit {v : Srv S} {c0 : Conn} (he0 : c0.enc = none) {file : Bytes} {seen written : Nat} {c : Conn} {s : RecvSt}
    (h : ConnUp v c0 file seen written c s) (text : Bytes) (t : Nat) (io : RecvIo) :
    (∃ s', ConnUp v c0 file seen written (v.handle c t ([0, 5] ++ text) io).1 s') ∧ (v.handle c t ([0, 5] ++ text) io).2 = none := by
  obtain ⟨ho, he, hs, hinv, hwr⟩ := h
  obtain ⟨g1, g2, g3, g4⟩ := handle_writer v hs t ([0, 5] ++ text) io
  have e1 : v.transfer c = v.transfer c0 := transfer_eq v ho (by rw [he0]; exact he)
  rw [e1] at g3 g4
  have hr : serverRecv (v.transfer c0) s ([0, 5] ++ text) io.file io.sendOk io.nonce = (s, none) ∨
      serverRecv (v.transfer c0) s ([0, 5] ++ text) io.file io.sendOk io.nonce = ({ s with failed := true }, none) := by
    unfold serverRecv
    rw [plain_dec he0]
    simp only
    rcases quit_read text with ⟨e, y, hp⟩ | ⟨e, hp⟩
    · rw [hp]; exact .inr rfl
    · rw [hp]; exact .inl rfl
  rcases hr with hr | hr
  · rw [hr] at g3 g4
    exact ⟨⟨s, by rw [g1]; exact ho, by rw [g2]; exact he, g3, hinv, hwr⟩, g4⟩
  · rw [hr] at g3 g4
    exact ⟨⟨_, by rw [g1]; exact ho, by rw [g2]; exact he, g3, hinv.fail, hwr⟩, g4⟩

/-- Which block the peer takes as confirmed. -/
theorem heard_ack {age : Option Nat} {file : Bytes} {bs W written confirmed : Nat} (hage : Distinct age W (nblocks file bs)) {x : Mail}
    (hst : x.stamp ≤ confirmed) (hin : inTime age x.stamp confirmed = true) (hx : DoneMail W written x)
    (hcw : confirmed ≤ written) (hwn : written ≤ nblocks file bs) :
    confirmed ≤ heard file bs W confirmed x.bytes ∧ heard file bs W confirmed x.bytes ≤ written := by
  unfold heard
  split
  · rename_i j hj
    have h1 := List.find?_some hj
    have h2 := List.mem_of_find?_eq_some hj
    simp only [List.mem_range] at h2
    simp only [decide_eq_true_eq] at h1
    obtain ⟨h1, h3⟩ := h1
    have hd : x.bytes.take 2 = [0, 4] := by rw [h3]; rfl
    obtain ⟨k, hk, hk1, hk2, hk3⟩ := hx hd
    rw [hk] at h3
    have hmod := number_inj (List.append_cancel_left h3)
    have hkeq : k = confirmed + j + 1 := by
      unfold Distinct at hage
      unfold inTime at hin
      cases age with
      | none => simp only at hage; omega
      | some l =>
        simp only [decide_eq_true_eq] at hin hage
        omega
    omega
  · omega

theorem timeout_done {v : Srv S} {c : Conn} (he : c.enc = none) (t : Nat) (io : RecvIo) (W n k : Nat) :
    ∀ d ∈ (v.timeout c t io).2.toList, DoneMail W n ⟨d, k⟩ := by
  intro d hd hd2
  simp only [Option.mem_toList] at hd
  unfold Srv.timeout at hd
  split at hd
  · cases hd
  · split at hd
    · cases hd
    · simp only at hd
      split at hd
      · exact absurd hd2 (error_not_ack he hd)
      · cases hd

theorem UInv.server {v : Srv S} {c0 : Conn} {file : Bytes} {X : Store} {seen written : Nat} (h : UInv v c0 file X seen written) (stops : Bool)
    (e : LifeEv) (seen' written' : Nat) (hw : written ≤ written') (hl : written' ≤ seen') (hs : seen' ≤ X.confirmed + c0.opts.window)
    (hn : seen' ≤ nblocks file c0.opts.payload)
    (hc : ∀ c, (v.lifeStep stops X.conn e).1 = some c → ∃ s, ConnUp v c0 file seen' written' c s)
    (hnone : (v.lifeStep stops X.conn e).1 = none → written' = written)
    (hd : ∀ d ∈ (v.lifeStep stops X.conn e).2, DoneMail c0.opts.window written' ⟨d, X.confirmed⟩) :
    UInv v c0 file (X.server v stops e) seen' written' := by
  obtain ⟨h1, h2, h3, h4, h5, h6, h7, h8⟩ := h
  refine ⟨?_, Nat.le_trans h2 hw, hl, hs, hn, hc, ?_, h8⟩
  · simp only [Store.server]
    cases hx : (v.lifeStep stops X.conn e).1 with
    | none => simp only [Rfc.stored]; rw [hnone hx]; exact h1
    | some c =>
      obtain ⟨s, k1, k2, k3, k4, k5⟩ := hc c hx
      have := k4.out
      obtain ⟨o, en, sd, a, b, m⟩ := c
      simp only at k3
      subst k3
      simp only [Rfc.stored]
      rw [this, k5]
      rfl
  · intro m hm
    simp only [Store.server, List.mem_append, List.mem_map] at hm
    rcases hm with ⟨d, hdm, rfl⟩ | hm
    · exact ⟨Nat.le_refl _, hd d hdm⟩
    · exact ⟨(h7 m hm).1, (h7 m hm).2.mono hw⟩

theorem UInv.step {v : Srv S} {c0 : Conn} (he0 : c0.enc = none) (hbs : 512 ≤ c0.opts.blockSize) {file : Bytes} {age : Option Nat}
    (hage : Distinct age c0.opts.window (nblocks file c0.opts.payload)) (stops : Bool) {X : Store} {seen written : Nat}
    (h : UInv v c0 file X seen written) (e : StoreEv) (hsound : e.sound) :
    ∃ seen' written', UInv v c0 file (X.step v stops file c0.opts.payload c0.opts.window age e) seen' written' := by
  obtain ⟨h1, h2, h3, h4, h5, h6, h7, h8⟩ := id h
  have same : ∀ e, (∀ c, (v.lifeStep stops X.conn e).1 = some c → ∃ s, ConnUp v c0 file seen written c s) →
      (∀ d ∈ (v.lifeStep stops X.conn e).2, DoneMail c0.opts.window written ⟨d, X.confirmed⟩) →
      ∃ seen' written', UInv v c0 file (X.server v stops e) seen' written' := fun e hc hd =>
    ⟨seen, written, h.server stops e seen written (Nat.le_refl _) h3 h4 h5 hc (fun _ => rfl) hd⟩
  cases e with
  | tick t io =>
    simp only [Store.step]
    cases hc : X.conn with
    | none => exact same _ (by rw [hc]; intro c hc; cases hc) (by rw [hc]; intro d hd; cases hd)
    | some c =>
      obtain ⟨s, hcu⟩ := h6 c hc
      have hact : c.active = false := by
        have := hcu.side
        obtain ⟨o, e, sd, a, b, m⟩ := c
        simp only at this
        subst this
        rfl
      refine same _ ?_ ?_
      · rw [hc]
        simp only [Srv.lifeStep, hact, Bool.false_eq_true, if_false]
        intro c' hc'; cases hc'
        exact ⟨s, hcu⟩
      · rw [hc]
        simp only [Srv.lifeStep, hact, Bool.false_eq_true, if_false]
        intro d hd; cases hd
  | check t io =>
    simp only [Store.step]
    refine same _ ?_ ?_
    · cases hc : X.conn with
      | none => intro c hc; cases hc
      | some c =>
        intro c' hc'
        simp only [Srv.lifeStep] at hc'
        split at hc'
        · cases hc'
        · cases hc'; exact h6 c hc
    · cases hc : X.conn with
      | none => intro d hd; cases hd
      | some c =>
        obtain ⟨s, hcu⟩ := h6 c hc
        exact timeout_done hcu.enc t io _ _ _
  | drop =>
    simp only [Store.step]
    refine same _ ?_ ?_
    · cases hc : X.conn <;> (intro c hc; cases hc)
    · cases hc : X.conn <;> (intro d hd; cases hd)
  | arrive i t io =>
    simp only [Store.step]
    split
    · rename_i x hx
      split
      · rename_i hin
        have hx' := h8 x (List.mem_of_getElem? hx)
        cases hc : X.conn with
        | none => exact same _ (by rw [hc]; intro c hc; cases hc) (by rw [hc]; intro d hd; cases hd)
        | some c =>
          obtain ⟨s, hcu⟩ := h6 c hc
          by_cases hdeaf : (stops && c.deaf) = true
          · refine same _ ?_ ?_
            · rw [hc]
              simp only [Srv.lifeStep, hdeaf, if_true]
              intro c' hc'; cases hc'; exact ⟨s, hcu⟩
            · rw [hc]
              simp only [Srv.lifeStep, hdeaf, if_true]
              intro d hd; cases hd
          · rcases hx'.2 with ⟨k, hk, hk1, hk2, hk3⟩ | ⟨text, hq⟩
            · obtain ⟨s', seen', written', g1, g2, g3, g4, g5, g6, -⟩ := up_block he0 hbs hcu h2 h3 h4 h5 hage hk hk1 hk2 hk3 hx'.1 hin t io hsound
              refine ⟨seen', written', h.server stops _ seen' written' g2 g3 g4 g5 ?_ ?_ ?_⟩
              · rw [hc]
                simp only [Srv.lifeStep, hdeaf, Bool.false_eq_true, if_false]
                intro c' hc'; cases hc'; exact ⟨s', g1⟩
              · rw [hc]
                simp only [Srv.lifeStep, hdeaf, Bool.false_eq_true, if_false]
                intro hc'; cases hc'
              · rw [hc]
                simp only [Srv.lifeStep, hdeaf, Bool.false_eq_true, if_false]
                exact g6
            · obtain ⟨⟨s', g1⟩, g2⟩ := up_quit he0 hcu text t io
              rw [← hq] at g1 g2
              refine same _ ?_ ?_
              · rw [hc]
                simp only [Srv.lifeStep, hdeaf, Bool.false_eq_true, if_false]
                intro c' hc'; cases hc'; exact ⟨s', g1⟩
              · rw [hc]
                simp only [Srv.lifeStep, hdeaf, Bool.false_eq_true, if_false, g2]
                intro d hd; cases hd
      · exact ⟨seen, written, h⟩
    · exact ⟨seen, written, h⟩
  | hear i =>
    simp only [Store.step]
    split
    · rename_i x hx
      split
      · rename_i hin
        have hx' := h7 x (List.mem_of_getElem? hx)
        obtain ⟨g1, g2⟩ := heard_ack (file := file) (bs := c0.opts.payload) hage hx'.1 hin hx'.2 h2 (by omega)
        refine ⟨seen, written, h1, g2, h3, by simp only; omega, h5, h6, ?_, ?_⟩
        · intro m hm
          exact ⟨Nat.le_trans (h7 m hm).1 g1, (h7 m hm).2⟩
        · intro m hm
          exact ⟨Nat.le_trans (h8 m hm).1 g1, (h8 m hm).2⟩
      · exact ⟨seen, written, h⟩
    · exact ⟨seen, written, h⟩
  | send j =>
    simp only [Store.step]
    split
    · rename_i hj
      refine ⟨seen, written, h1, h2, h3, h4, h5, h6, h7, ?_⟩
      intro m hm
      simp only [List.mem_cons] at hm
      rcases hm with rfl | hm
      · exact ⟨Nat.le_refl _, .inl ⟨_, rfl, by simp only; omega, by simp only; omega, hj.2⟩⟩
      · exact h8 m hm
    · exact ⟨seen, written, h⟩
  | quit text =>
    refine ⟨seen, written, h1, h2, h3, h4, h5, h6, h7, ?_⟩
    intro m hm
    simp only [Store.step, List.mem_cons] at hm
    rcases hm with rfl | hm
    · exact ⟨Nat.le_refl _, .inr ⟨text, rfl⟩⟩
    · exact h8 m hm

theorem UInv.run {v : Srv S} {c0 : Conn} (he0 : c0.enc = none) (hbs : 512 ≤ c0.opts.blockSize) {file : Bytes} {age : Option Nat}
    (hage : Distinct age c0.opts.window (nblocks file c0.opts.payload)) (stops : Bool) (es : List StoreEv) (hs : ∀ e ∈ es, e.sound)
    {X : Store} {seen written : Nat} (h : UInv v c0 file X seen written) :
    ∃ seen' written', UInv v c0 file (X.run v stops file c0.opts.payload c0.opts.window age es) seen' written' := by
  induction es generalizing X seen written with
  | nil => exact ⟨_, _, h⟩
  | cons e r ih =>
    obtain ⟨_, _, h'⟩ := h.step he0 hbs hage stops e (hs e (by simp))
    exact ih (fun e he => hs e (by simp [he])) h'

/-- The first state. -/
theorem UInv.init {v : Srv S} (hb : 512 ≤ v.cfg.maxBlock ∧ v.cfg.maxBlock ≤ 65535) (hw : 1 ≤ v.cfg.maxWindow ∧ v.cfg.maxWindow ≤ 65535)
    {t : Nat} {dg : Bytes} {io : NewIo} {c : Conn} {out : List Bytes} (h : (v.newConn t dg io).result = .ok (c, out)) (he : c.enc = none)
    (file : Bytes) (hside : c.side = .writer ⟨Writer.new, 0, 0, false, false⟩) :
    UInv v c file (Store.init c out) 0 0 := by
  obtain ⟨-, -, -, -, -, hout⟩ := plain_new hb hw h he
  refine ⟨by simp [Store.init, bytesIn], Nat.le_refl _, Nat.le_refl _, Nat.zero_le _, Nat.zero_le _, ?_, ?_, ?_⟩
  · intro c' hc'
    cases hc'
    exact ⟨_, rfl, he, hside, RInv.init _ _, rfl⟩
  · intro m hm
    simp only [Store.init, List.mem_map] at hm
    obtain ⟨d, hd, rfl⟩ := hm
    refine ⟨Nat.le_refl _, fun hd2 => ?_⟩
    rcases hout with rfl | rfl | ⟨x, rfl⟩
    · cases hd
    · simp only [List.mem_singleton] at hd
      subst hd
      exact ⟨0, rfl, Nat.le_refl _, Nat.zero_le _, Nat.le_refl _⟩
    · simp only [List.mem_singleton] at hd
      subst hd
      simp at hd2
  · intro m hm; cases hm

/-! ### Completion -/

theorem heard_exact {age : Option Nat} {file : Bytes} {bs W confirmed n : Nat} (hage : Distinct age W (nblocks file bs))
    (h1 : confirmed < n) (h2 : n ≤ confirmed + W) (h3 : n ≤ nblocks file bs) : heard file bs W confirmed (ackPacket n) = n := by
  unfold heard
  split
  · rename_i j hj
    have g1 := List.find?_some hj
    have g2 := List.mem_of_find?_eq_some hj
    simp only [List.mem_range] at g2
    simp only [decide_eq_true_eq] at g1
    obtain ⟨g1, g3⟩ := g1
    have hmod := number_inj (List.append_cancel_left g3)
    unfold Distinct at hage
    cases age with
    | none => simp only at hage; omega
    | some l => simp only at hage; omega
  · rename_i hj
    rw [List.find?_eq_none] at hj
    have := hj (n - confirmed - 1) (by simp only [List.mem_range]; omega)
    rw [show confirmed + (n - confirmed - 1) + 1 = n by omega] at this
    simp [h3] at this

/-- The peer sends the oldest block which is not confirmed, and the server hears it. -/
theorem round_send {v : Srv S} {c0 : Conn} (he0 : c0.enc = none) (hbs : 512 ≤ c0.opts.blockSize) (hwin : 1 ≤ c0.opts.window) {file : Bytes}
    (hfit : file.length ≤ v.cfg.maxFileSize) {age : Option Nat}
    (hage : Distinct age c0.opts.window (nblocks file c0.opts.payload)) (stops : Bool) {X : Store} {seen written : Nat}
    (h : UInv v c0 file X seen written) {c : Conn} {s : RecvSt} (hc : X.conn = some c) (hcu : ConnUp v c0 file seen written c s)
    (hf : s.failed = false) (hfin : s.finished = false) (Y : Store)
    (hY : Y = X.run v stops file c0.opts.payload c0.opts.window age [.send 0, .arrive 0 0 ⟨.all, true, 0⟩]) :
    written < nblocks file c0.opts.payload ∧
    ∃ c' s' seen' written', UInv v c0 file Y seen' written' ∧ Y.conn = some c' ∧ ConnUp v c0 file seen' written' c' s' ∧ s'.failed = false ∧
      Y.confirmed = X.confirmed ∧
      (written = X.confirmed → written' = written + 1 ∧
        (written + 1 = nblocks file c0.opts.payload → Y.toPeer = ⟨ackPacket (written + 1), X.confirmed⟩ :: X.toPeer)) ∧
      (X.confirmed < written → written' = written ∧ Y.toPeer = ⟨ackPacket written, X.confirmed⟩ :: X.toPeer) := by
  have hlt : written < nblocks file c0.opts.payload := by
    have h1 : s.w.written = nblocks file c0.opts.payload → s.finished = true ∨ s.failed = true := hcu.inv.done
    rw [hcu.written, hf, hfin] at h1
    have := h.le
    have := h.seen_le
    rcases Nat.lt_or_ge written (nblocks file c0.opts.payload) with h2 | h2
    · exact h2
    · have := h1 (by omega); simp at this
  have hcw := h.confirmed
  generalize hX1 : X.step v stops file c0.opts.payload c0.opts.window age (.send 0) = X1
  have e1 : X1 = { X with toServer :=
      ⟨dataPacket (X.confirmed + 1) (block file c0.opts.payload (X.confirmed + 1)), X.confirmed⟩ :: X.toServer } := by
    rw [← hX1]
    simp only [Store.step]
    rw [if_pos ⟨by omega, by omega⟩]
  have h1 : UInv v c0 file X1 seen written := by
    obtain ⟨a1, a2, a3, a4, a5, a6, a7, a8⟩ := h
    rw [e1]
    refine ⟨a1, a2, a3, a4, a5, a6, a7, ?_⟩
    intro m hm
    simp only [List.mem_cons] at hm
    rcases hm with rfl | hm
    · exact ⟨Nat.le_refl _, .inl ⟨_, rfl, by simp only; omega, by simp only; omega, by omega⟩⟩
    · exact a8 m hm
  have hdeaf : c.deaf = false := by
    have := hcu.side
    obtain ⟨o, e, sd, a, b, m⟩ := c
    simp only at this
    subst this
    simp [Conn.deaf, hf, hfin]
  obtain ⟨s', seen', written', g1, g2, g3, g4, g5, g6, g7⟩ := up_block he0 hbs hcu hcw h.le h.room h.seen_le hage
    (x := ⟨dataPacket (X.confirmed + 1) (block file c0.opts.payload (X.confirmed + 1)), X.confirmed⟩) (k := X.confirmed + 1)
    rfl (by simp only; omega) (by simp only; omega) (by omega) (Nat.le_refl _) (inTime_self age _) 0 ⟨.all, true, 0⟩ (.inl rfl)
  obtain ⟨g7, g8, g9⟩ := g7 rfl rfl hf hfit
  have hY2 : Y = X1.server v stops (.recv 0 (dataPacket (X.confirmed + 1) (block file c0.opts.payload (X.confirmed + 1))) ⟨.all, true, 0⟩) := by
    rw [hY]
    simp only [Store.run, List.foldl_cons, List.foldl_nil]
    rw [hX1, e1]
    simp only [Store.step, List.getElem?_cons_zero, inTime_self, if_true]
  have hl : v.lifeStep stops X1.conn (.recv 0 (dataPacket (X.confirmed + 1) (block file c0.opts.payload (X.confirmed + 1))) ⟨.all, true, 0⟩) =
      (some (v.handle c 0 (dataPacket (X.confirmed + 1) (block file c0.opts.payload (X.confirmed + 1))) ⟨.all, true, 0⟩).1,
        (v.handle c 0 (dataPacket (X.confirmed + 1) (block file c0.opts.payload (X.confirmed + 1))) ⟨.all, true, 0⟩).2.toList) := by
    rw [e1]
    simp only [hc, Srv.lifeStep, hdeaf, Bool.and_false, Bool.false_eq_true, if_false]
  have hconf : X1.confirmed = X.confirmed := by rw [e1]
  have hpeer : X1.toPeer = X.toPeer := by rw [e1]
  refine ⟨hlt, _, s', seen', written', ?_, ?_, g1, g7, ?_, ?_, ?_⟩
  · rw [hY2]
    refine h1.server stops _ seen' written' g2 g3 (by rw [hconf]; exact g4) g5 ?_ ?_ ?_
    · rw [hl]; intro c' hc'; cases hc'; exact ⟨s', g1⟩
    · rw [hl]; intro hc'; cases hc'
    · rw [hl, hconf]; exact g6
  · rw [hY2]; simp only [Store.server]; rw [hl]
  · rw [hY2]; simp only [Store.server]; exact hconf
  · intro heq
    obtain ⟨k1, k2⟩ := g8 (by omega)
    refine ⟨by omega, fun hN => ?_⟩
    have k2 := k2 (by omega)
    simp only at k2
    rw [hY2]; simp only [Store.server]; rw [hl, k2, hconf, hpeer, ← heq]; rfl
  · intro hne
    obtain ⟨k1, k2⟩ := g9 (by omega)
    refine ⟨k1, ?_⟩
    simp only at k2
    rw [hY2]; simp only [Store.server]; rw [hl, k2, hconf, hpeer]; rfl

theorem Store.run_append (v : Srv S) (stops : Bool) (file : Bytes) (bs W : Nat) (age : Option Nat) (X : Store) (es fs : List StoreEv) :
    X.run v stops file bs W age (es ++ fs) = (X.run v stops file bs W age es).run v stops file bs W age fs := List.foldl_append

/-- The peer hears the newest datagram. -/
theorem hear_newest {v : Srv S} {c0 : Conn} {file : Bytes} {age : Option Nat} (hage : Distinct age c0.opts.window (nblocks file c0.opts.payload))
    (stops : Bool) {Y : Store} {seen written : Nat} (h : UInv v c0 file Y seen written) (hlt : Y.confirmed < written)
    {rest : List Mail} (hm : Y.toPeer = ⟨ackPacket written, Y.confirmed⟩ :: rest) :
    UInv v c0 file (Y.step v stops file c0.opts.payload c0.opts.window age (.hear 0)) seen written ∧
    (Y.step v stops file c0.opts.payload c0.opts.window age (.hear 0)).confirmed = written ∧
    (Y.step v stops file c0.opts.payload c0.opts.window age (.hear 0)).conn = Y.conn := by
  have h3 := h.le
  have h4 := h.room
  have h5 := h.seen_le
  have e : Y.step v stops file c0.opts.payload c0.opts.window age (.hear 0) = { Y with confirmed := written } := by
    simp only [Store.step, hm, List.getElem?_cons_zero, inTime_self, if_true]
    rw [heard_exact hage hlt (by omega) (by omega)]
  rw [e]
  obtain ⟨a1, a2, a3, a4, a5, a6, a7, a8⟩ := h
  refine ⟨⟨a1, Nat.le_refl _, a3, by simp only; omega, a5, a6, ?_, ?_⟩, rfl, rfl⟩
  · intro m hm; exact ⟨by have := (a7 m hm).1; simp only; omega, (a7 m hm).2⟩
  · intro m hm; exact ⟨by have := (a8 m hm).1; simp only; omega, (a8 m hm).2⟩

theorem up_completes {v : Srv S} {c0 : Conn} (he0 : c0.enc = none) (hbs : 512 ≤ c0.opts.blockSize) (hwin : 1 ≤ c0.opts.window) {file : Bytes}
    (hfit : file.length ≤ v.cfg.maxFileSize) {age : Option Nat}
    (hage : Distinct age c0.opts.window (nblocks file c0.opts.payload)) (stops : Bool) (n : Nat) :
    ∀ {X : Store} {seen written : Nat}, UInv v c0 file X seen written → ∀ {c : Conn} {s : RecvSt}, X.conn = some c →
    ConnUp v c0 file seen written c s → s.failed = false → s.finished = false →
    (nblocks file c0.opts.payload - X.confirmed) + (nblocks file c0.opts.payload - written) ≤ n →
    ∃ es c' s', (∀ e ∈ es, e.sound) ∧
      (X.run v stops file c0.opts.payload c0.opts.window age es).confirmed = nblocks file c0.opts.payload ∧
      (X.run v stops file c0.opts.payload c0.opts.window age es).conn = some c' ∧ c'.side = .writer s' ∧ s'.finished = true ∧ s'.failed = false := by
  induction n with
  | zero =>
    intro X seen written h c s hc hcu hf hfin hn
    have := (round_send he0 hbs hwin hfit hage stops h hc hcu hf hfin _ rfl).1
    omega
  | succ n ih =>
    intro X seen written h c s hc hcu hf hfin hn
    generalize hY : X.run v stops file c0.opts.payload c0.opts.window age [.send 0, .arrive 0 0 ⟨.all, true, 0⟩] = Y
    obtain ⟨hlt, c1, s1, seen1, written1, g1, g2, g3, g4, g5, g6, g7⟩ := round_send he0 hbs hwin hfit hage stops h hc hcu hf hfin Y hY.symm
    have hs1 : ∀ e ∈ [StoreEv.send 0, .arrive 0 0 ⟨.all, true, 0⟩], e.sound := by
      intro e he
      simp only [List.mem_cons, List.not_mem_nil, or_false] at he
      rcases he with rfl | rfl
      · trivial
      · exact .inl rfl
    have hs2 : ∀ e ∈ [StoreEv.send 0, .arrive 0 0 ⟨.all, true, 0⟩, .hear 0], e.sound := by
      intro e he
      simp only [List.mem_cons, List.not_mem_nil, or_false] at he
      rcases he with rfl | rfl | rfl
      · trivial
      · exact .inl rfl
      · trivial
    have happ : ∀ {es fs : List StoreEv}, (∀ e ∈ es, e.sound) → (∀ e ∈ fs, e.sound) → ∀ e ∈ es ++ fs, e.sound := by
      intro es fs h1 h2 e he
      rcases List.mem_append.mp he with he | he
      · exact h1 e he
      · exact h2 e he
    have hopen : ∀ {k : Nat} {q : RecvSt}, RInv (v.transfer c0) file k q → q.w.written < nblocks file c0.opts.payload → q.finished = false := by
      intro k q hq hlt
      cases hqf : q.finished with
      | false => rfl
      | true =>
        have : q.w.written = nblocks file c0.opts.payload := hq.fin hqf
        omega
    have hYs : ∀ k, X.run v stops file c0.opts.payload c0.opts.window age [.send 0, .arrive 0 0 ⟨.all, true, 0⟩, .hear k] =
        Y.step v stops file c0.opts.payload c0.opts.window age (.hear k) := by
      intro k; rw [← hY]; rfl
    have hcw := h.confirmed
    by_cases heq : written = X.confirmed
    · obtain ⟨k1, k2⟩ := g6 heq
      by_cases hN : written + 1 = nblocks file c0.opts.payload
      · have k2 := k2 hN
        obtain ⟨q1, q2, q3⟩ := hear_newest hage stops g1 (by omega) (rest := X.toPeer) (by rw [k2, g5, k1])
        refine ⟨_, c1, s1, hs2, ?_, ?_, g3.side, ?_, g4⟩
        · rw [hYs, q2]; omega
        · rw [hYs, q3]; exact g2
        · have hd : s1.w.written = nblocks file c0.opts.payload → s1.finished = true ∨ s1.failed = true := g3.inv.done
          rcases hd (by rw [g3.written]; omega) with hd | hd
          · exact hd
          · rw [g4] at hd; cases hd
      · obtain ⟨es, c', s', p1, p2, p3, p4, p5, p6⟩ := ih g1 g2 g3 g4 (hopen g3.inv (by rw [g3.written]; omega)) (by omega)
        refine ⟨[.send 0, .arrive 0 0 ⟨.all, true, 0⟩] ++ es, c', s', happ hs1 p1, ?_, ?_, p4, p5, p6⟩
        · rw [Store.run_append, hY]; exact p2
        · rw [Store.run_append, hY]; exact p3
    · obtain ⟨k1, k2⟩ := g7 (by omega)
      obtain ⟨q1, q2, q3⟩ := hear_newest hage stops g1 (by omega) (rest := X.toPeer) (by rw [k2, g5, k1])
      obtain ⟨es, c', s', p1, p2, p3, p4, p5, p6⟩ := ih q1 (by rw [q3]; exact g2) g3 g4 (hopen g3.inv (by rw [g3.written]; omega)) (by omega)
      refine ⟨[.send 0, .arrive 0 0 ⟨.all, true, 0⟩, .hear 0] ++ es, c', s', happ hs2 p1, ?_, ?_, p4, p5, p6⟩
      · rw [Store.run_append, hYs]; exact p2
      · rw [Store.run_append, hYs]; exact p3

/-! ### C81 -/

theorem writer_new {v : Srv S} {t : Nat} {dg : Bytes} {io : NewIo} {c : Conn} {out : List Bytes} {r : Request}
    (h : (v.newConn t dg io).result = .ok (c, out)) (hreq : v.requestOf dg = some (true, r)) :
    c.side = .writer ⟨Writer.new, 0, 0, false, false⟩ := by
  obtain ⟨write, r', used, keys, name', kind, g1, -, g3, -, g5, -⟩ := newConn_ok h
  rw [hreq] at g1
  cases g1
  simp only [if_true] at g5
  exact g5.2.2

/-- **C81**, what is stored: the server accepted the write request `dg`, and the connection is not encrypted. A peer which follows the RFCs
sends `file` with the block and window size the server has confirmed. At all times the server's file is a prefix of it in whole blocks, in any
schedule and with any losses, duplicates, delays and reorderings, and contains every block the peer has got confirmed. So when the peer
considers the transfer complete (all blocks are confirmed), or the server does, the server's file is `file`. -/
theorem c81_upload (v : Srv S) (hb : 512 ≤ v.cfg.maxBlock ∧ v.cfg.maxBlock ≤ 65535) (hw : 1 ≤ v.cfg.maxWindow ∧ v.cfg.maxWindow ≤ 65535)
    (t : Nat) (dg : Bytes) (io : NewIo) (c : Conn) (out : List Bytes) (h : (v.newConn t dg io).result = .ok (c, out)) (he : c.enc = none)
    (r : Request) (hreq : v.requestOf dg = some (true, r)) (file : Bytes)
    (age : Option Nat) (hage : Distinct age (windowSize out) (file.length / blockSize out + 1)) (stops : Bool) (es : List StoreEv)
    (hs : ∀ e ∈ es, e.sound) (X : Store) (hX : X = (Store.init c out).run v stops file (blockSize out) (windowSize out) age es) :
    (∃ n, X.confirmed ≤ n ∧ X.stored = file.take (n * blockSize out)) ∧
    (X.confirmed = file.length / blockSize out + 1 → X.stored = file) ∧
    (∀ c', X.conn = some c' → c'.finished = true → X.stored = file) := by
  obtain ⟨p1, p2, p3, p4, p5, -⟩ := plain_new hb hw h he
  have h0 := UInv.init hb hw h he file (writer_new h hreq)
  rw [p4, ← p1] at hage hX ⊢
  rw [p5] at hage hX
  have hpb := payload_bounds p2
  obtain ⟨seen, written, h1⟩ := h0.run he p2 (age := age) hage stops es hs
  rw [← hX] at h1
  have hall : written = nblocks file c.opts.payload → X.stored = file := by
    intro hn
    rw [h1.stored, hn, bytesIn_nblocks _ _ _ hpb.1 (Nat.le_refl _)]
    exact List.take_of_length_le (l := file) (Nat.le_refl _)
  have a1 := h1.confirmed
  have a2 := h1.le
  have a3 := h1.seen_le
  refine ⟨⟨written, a1, by rw [h1.stored, bytesIn_take]⟩, ?_, ?_⟩
  · intro hd
    apply hall
    have hd : X.confirmed = nblocks file c.opts.payload := hd
    omega
  · intro c' hc' hf
    obtain ⟨s, k1, k2, k3, k4, k5⟩ := h1.conn c' hc'
    have hs : s.finished = true := by
      obtain ⟨o, e, sd, a, b, m⟩ := c'
      simp only at k3
      subst k3
      exact hf
    apply hall
    rw [← k5]
    exact k4.fin hs

/-- **C81**, completion: from every state of such a transfer in which the server's connection has neither failed nor finished, it can be
completed on both sides, even if everything under way is lost, if the file is not longer than the server allows. -/
theorem c81_completes (v : Srv S) (hb : 512 ≤ v.cfg.maxBlock ∧ v.cfg.maxBlock ≤ 65535) (hw : 1 ≤ v.cfg.maxWindow ∧ v.cfg.maxWindow ≤ 65535)
    (t : Nat) (dg : Bytes) (io : NewIo) (c : Conn) (out : List Bytes) (h : (v.newConn t dg io).result = .ok (c, out)) (he : c.enc = none)
    (r : Request) (hreq : v.requestOf dg = some (true, r)) (file : Bytes) (hfit : file.length ≤ v.cfg.maxFileSize)
    (age : Option Nat) (hage : Distinct age (windowSize out) (file.length / blockSize out + 1)) (stops : Bool) (es : List StoreEv)
    (hs : ∀ e ∈ es, e.sound) (X : Store) (hX : X = (Store.init c out).run v stops file (blockSize out) (windowSize out) age es)
    (c1 : Conn) (hc1 : X.conn = some c1) (hf : c1.failed = false) (hfin : c1.finished = false) :
    ∃ fs c2, (∀ e ∈ fs, e.sound) ∧
      (X.lost.run v stops file (blockSize out) (windowSize out) age fs).confirmed = file.length / blockSize out + 1 ∧
      (X.lost.run v stops file (blockSize out) (windowSize out) age fs).stored = file ∧
      (X.lost.run v stops file (blockSize out) (windowSize out) age fs).conn = some c2 ∧ c2.finished = true ∧ c2.failed = false := by
  obtain ⟨p1, p2, p3, p4, p5, -⟩ := plain_new hb hw h he
  have h0 := UInv.init hb hw h he file (writer_new h hreq)
  rw [p4, ← p1, p5] at hage hX ⊢
  obtain ⟨seen, written, h1⟩ := h0.run he p2 (age := age) hage stops es hs
  rw [← hX] at h1
  replace h1 : UInv v c file X.lost seen written := by
    obtain ⟨g1, g2, g3, g4, g5, g6, g7, g8⟩ := h1
    exact ⟨g1, g2, g3, g4, g5, g6, (by intro m hm; cases hm), (by intro m hm; cases hm)⟩
  obtain ⟨s, hcu⟩ := h1.conn c1 hc1
  have hside : ∀ {c' : Conn} {s : RecvSt}, c'.side = .writer s → c'.finished = s.finished ∧ c'.failed = s.failed := by
    intro c' s hs
    obtain ⟨o, e, sd, a, b, m⟩ := c'
    simp only at hs
    subst hs
    exact ⟨rfl, rfl⟩
  rw [(hside hcu.side).2] at hf
  rw [(hside hcu.side).1] at hfin
  obtain ⟨fs, c2, s2, q1, q2, q3, q4, q5, q6⟩ := up_completes he p2 p3 hfit (age := age) hage stops _ h1 hc1 hcu hf hfin (Nat.le_refl _)
  obtain ⟨seen', written', h2⟩ := h1.run he p2 (age := age) hage stops fs q1
  have hst : (X.lost.run v stops file c.opts.payload c.opts.window age fs).stored = file := by
    have a1 := h2.confirmed
    have a2 := h2.le
    have a3 := h2.seen_le
    have : written' = nblocks file c.opts.payload := by omega
    rw [h2.stored, this, bytesIn_nblocks _ _ _ (payload_bounds p2).1 (Nat.le_refl _)]
    exact List.take_of_length_le (l := file) (Nat.le_refl _)
  exact ⟨fs, c2, q1, q2, hst, q3, by rw [(hside q4).1]; exact q5, by rw [(hside q4).2]; exact q6⟩

end Tftp.Rfc

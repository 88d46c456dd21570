import Verif.TransferModel
import Verif.ReaderProps
import Verif.PacketProps
/- Invariant of a transfer and its preservation by every event. -/
namespace Tftp
open Spec

/-- Mapping of a block index which the network is allowed to deliver. -/
theorem Mapper.index_fresh (m : Mapper) (M t N : Nat) (h : m.Inv M) (hM : M ≤ N) (ht : t ≤ N)
    (h1 : M ≤ t + 10000 ∨ N ≤ 55535) (h2 : t ≤ M + 10000 ∨ N ≤ 55535) :
    (m.index (t % 65536)).2 = t ∧ (m.index (t % 65536)).1.Inv (max M t) := by
  by_cases hN : N ≤ 55535
  · obtain ⟨c, n⟩ := m
    simp only [Mapper.Inv] at h
    obtain ⟨hc, ⟨h3, h4, h5⟩ | ⟨h3, h4, h5⟩⟩ := h
    · have hc1 : c = 1 := by omega
      subst hc1 h3
      have e : t % 65536 = t := by omega
      have ha : Mapper.announce ⟨1, 1⟩ t = ⟨1, 1⟩ := by
        unfold Mapper.announce; rw [if_neg (by omega)]
      simp only [Mapper.index, e, ha, Mapper.inCurrent, Mapper.Inv]
      simp
      omega
    · omega
  · exact m.index_step M t h (by omega) (by omega)

theorem decode_data (b : UInt16) (d : Bytes) :
    Packet.fromBytes (Packet.data b d).toBytes = .ok (.data b d) := c01_round_trip _ trivial
theorem decode_ack (b : UInt16) : Packet.fromBytes (Packet.ack b).toBytes = .ok (.ack b) :=
  c01_round_trip _ trivial
theorem decode_error (e : ErrorCode) :
    Packet.fromBytes (Packet.error e []).toBytes = .ok (.error e []) :=
  c01_round_trip _ ⟨by simp, by decide⟩

theorem toNat_ofNat_mod (t : Nat) : (UInt16.ofNat (t % 65536)).toNat = t % 65536 := by
  simp

theorem emit_some {c : Cfg} {n tag p d} (h : c.emit n tag p = some d) :
    d.tag = tag ∧ c.codec.dec d.bytes = some p.toBytes := by
  unfold Cfg.emit at h
  cases he : c.codec.enc n p.toBytes with
  | none => rw [he] at h; simp at h
  | some e =>
    rw [he] at h
    simp only [Option.map_some, Option.some.injEq] at h
    subst h
    exact ⟨rfl, c.codec.dec_enc _ _ _ he⟩

theorem emit_isSome {c : Cfg} {n tag p} (h1 : 4 ≤ p.toBytes.length) (h2 : p.toBytes.length ≤ c.bs + 4) :
    ∃ d, c.emit n tag p = some d := by
  have := c.codec.enc_some n p.toBytes h1 h2
  unfold Cfg.emit
  cases he : c.codec.enc n p.toBytes with
  | none => rw [he] at this; simp at this
  | some e => exact ⟨_, rfl⟩

/-- A genuine datagram of the sender: the exact block of the file, or an error. -/
def DataOk (c : Cfg) (file : Bytes) (top : Nat) (d : Dgram) : Prop :=
  match d.tag with
  | some t => 1 ≤ t ∧ t ≤ top ∧
      c.codec.dec d.bytes = some (Packet.data (UInt16.ofNat (t % 65536)) (block file c.bs t)).toBytes
  | none => ∃ e, c.codec.dec d.bytes = some (Packet.error e []).toBytes

/-- A genuine datagram of the receiver: acknowledges a stored block, or an error. -/
def AckOk (c : Cfg) (written : Nat) (d : Dgram) : Prop :=
  match d.tag with
  | some t => t ≤ written ∧
      c.codec.dec d.bytes = some (Packet.ack (UInt16.ofNat (t % 65536))).toBytes
  | none => ∃ e, c.codec.dec d.bytes = some (Packet.error e []).toBytes

/-- Invariant of the receiving side. -/
structure RInv (c : Cfg) (file : Bytes) (seen : Nat) (r : RecvSt) : Prop where
  mapper : r.w.mapper.Inv seen
  seen : r.w.written ≤ seen
  out : r.w.out = file.take (bytesIn file c.bs r.w.written)
  last : r.lastAck ≤ r.w.written
  total : r.failed = false → r.total = bytesIn file c.bs r.w.written
  total_le : r.total ≤ bytesIn file c.bs r.w.written
  fin : r.finished = true → r.w.written = nblocks file c.bs
  done : r.w.written = nblocks file c.bs → r.finished = true ∨ r.failed = true

theorem RInv.fail {c file seen r} (h : RInv c file seen r) :
    RInv c file seen { r with failed := true } := by
  obtain ⟨h1, h2, h3, h4, h5, h5', h6, h7⟩ := h
  constructor <;> simp_all

/-- What a data block does to the writer. -/
theorem write_cases {c : Cfg} {file : Bytes} {seen t : Nat} {r : RecvSt} (h : RInv c file seen r)
    (hi : (r.w.mapper.index (t % 65536)).2 = t) (ioOk : Bool) :
    wrapWrite r.w (t % 65536) (block file c.bs t) (if ioOk then .all else .err) =
      (if t = r.w.written + 1 then
        if ioOk then
          (⟨file.take (bytesIn file c.bs t), (r.w.mapper.index (t % 65536)).1, t⟩,
            some (some (block file c.bs t).length, t, t % 65536))
        else ({ r.w with mapper := (r.w.mapper.index (t % 65536)).1 }, none)
      else ({ r.w with mapper := (r.w.mapper.index (t % 65536)).1 },
            some (none, r.w.written, r.w.written % 65536))) := by
  have hout := h.out
  unfold wrapWrite Writer.writeBlock
  generalize r.w.mapper.index (t % 65536) = mi at *
  obtain ⟨m, i⟩ := mi
  simp only at hi
  subst hi
  simp only
  by_cases h1 : i < r.w.written + 1
  · rw [if_pos h1, if_neg (by omega), blockOf_eq]
  · rw [if_neg h1]
    by_cases h2 : i > r.w.written + 1
    · rw [if_pos h2, if_neg (by omega), blockOf_eq]
    · have h3 : i = r.w.written + 1 := by omega
      subst h3
      rw [if_neg (by omega), if_pos rfl]
      cases ioOk with
      | false => rfl
      | true =>
        simp only [if_true, WriteIo.taken, hout, take_bytesIn_succ]

theorem RInv.of_write {c : Cfg} {file : Bytes} {seen : Nat} {r : RecvSt} (hbs : 0 < c.bs)
    (h : RInv c file seen r) {m : Mapper} {seen' : Nat} (hm : m.Inv seen') (hs : r.w.written + 1 ≤ seen')
    (hN : r.w.written + 1 ≤ nblocks file c.bs) (last' : Nat) (hl : last' ≤ r.w.written + 1) (b : Bool)
    (hb : b = decide ((block file c.bs (r.w.written + 1)).length < c.bs)) :
    RInv c file seen' ⟨⟨file.take (bytesIn file c.bs (r.w.written + 1)), m, r.w.written + 1⟩, last',
      r.total + (block file c.bs (r.w.written + 1)).length, b, r.failed⟩ := by
  obtain ⟨h1, h2, h3, h4, h5, h5', h6, h7⟩ := h
  have hsh := block_short_iff file c.bs (r.w.written + 1) hbs (by omega) hN
  have hlen := block_length file c.bs (r.w.written + 1) (by omega)
  have hmono := bytesIn_mono file c.bs (Nat.le_add_right r.w.written 1)
  simp only [Nat.add_sub_cancel] at hlen
  constructor
  · exact hm
  · exact hs
  · rfl
  · exact hl
  · intro hf
    have := h5 hf
    simp only
    omega
  · simp only; omega
  · intro hf
    simp only at hf ⊢
    rw [hb, decide_eq_true_eq] at hf
    exact hsh.mp hf
  · intro hf
    left
    simp only at hf ⊢
    rw [hb, decide_eq_true_eq]
    exact hsh.mpr hf

theorem RInv.of_skip {c : Cfg} {file : Bytes} {seen : Nat} {r : RecvSt}
    (h : RInv c file seen r) {m : Mapper} {seen' : Nat} (hm : m.Inv seen') (hs : seen ≤ seen')
    (last' : Nat) (hl : last' ≤ r.w.written) :
    RInv c file seen' ⟨{ r.w with mapper := m }, last', r.total, r.finished, r.failed⟩ := by
  obtain ⟨h1, h2, h3, h4, h5, h5', h6, h7⟩ := h
  constructor <;> simp only <;> first | assumption | omega

/-- A genuine data packet at the receiving side. -/
theorem recv_data {c : Cfg} {file : Bytes} {seen t : Nat} {r : RecvSt} {dg : Bytes} (hbs : 0 < c.bs)
    (h : RInv c file seen r)
    (hd : c.codec.dec dg =
      some (Packet.data (UInt16.ofNat (t % 65536)) (block file c.bs t)).toBytes)
    (ht : 1 ≤ t) (htN : t ≤ nblocks file c.bs)
    (hi : (r.w.mapper.index (t % 65536)).2 = t)
    (hm : (r.w.mapper.index (t % 65536)).1.Inv (max seen t)) (ioOk sendOk : Bool) (nonce : Nat) :
    RInv c file (max seen t) (recvRecv c r dg (if ioOk then .all else .err) sendOk nonce).1 ∧
    r.w.written ≤ (recvRecv c r dg (if ioOk then .all else .err) sendOk nonce).1.w.written ∧
    (∀ d, (recvRecv c r dg (if ioOk then .all else .err) sendOk nonce).2 = some d →
      AckOk c (recvRecv c r dg (if ioOk then .all else .err) sendOk nonce).1.w.written d) := by
  have hack : ∀ (n : Nat) (d : Dgram), c.emit nonce (some n) (.ack (UInt16.ofNat (n % 65536))) = some d →
      ∀ k, n ≤ k → AckOk c k d := by
    intro n d he k hk
    obtain ⟨e1, e2⟩ := emit_some he
    unfold AckOk
    rw [e1]
    exact ⟨hk, e2⟩
  have herr : ∀ (e : ErrorCode) (d : Dgram), c.emit nonce none (.error e []) = some d →
      ∀ k, AckOk c k d := by
    intro e d he k
    obtain ⟨e1, e2⟩ := emit_some he
    unfold AckOk
    rw [e1]
    exact ⟨e, e2⟩
  have hw := write_cases (t := t) h hi ioOk
  have hseen := h.seen
  have hlast := h.last
  have hmax : seen ≤ max seen t := Nat.le_max_left _ _
  have hfinN := h.fin
  unfold recvRecv
  by_cases hnext : t = r.w.written + 1
  · -- the next block
    rw [if_pos hnext] at hw
    have hwN : r.w.written + 1 ≤ nblocks file c.bs := by omega
    have hnf : r.finished = false := by
      cases hf : r.finished with
      | false => rfl
      | true => have := hfinN hf; omega
    have key : ∀ last', last' ≤ r.w.written + 1 →
        RInv c file (max seen t) ⟨⟨file.take (bytesIn file c.bs t),
          (r.w.mapper.index (t % 65536)).1, t⟩, last',
          r.total + (block file c.bs t).length, decide ((block file c.bs t).length < c.bs),
          r.failed⟩ := by
      intro last' hl
      subst hnext
      exact h.of_write hbs hm (by omega) hwN last' hl _ rfl
    have keyF : RInv c file (max seen t) ⟨⟨file.take (bytesIn file c.bs t),
          (r.w.mapper.index (t % 65536)).1, t⟩, r.lastAck, r.total, r.finished, true⟩ := by
      obtain ⟨h1, h2, h3, h4, h5, h5', h6, h7⟩ := key r.lastAck (by omega)
      simp only at *
      constructor <;> simp only <;> first | assumption | omega | skip
      · intro hf; cases hf
      · intro hf; rw [hnf] at hf; cases hf
      · intro; right; trivial
    cases ioOk with
    | false =>
      simp only [Bool.false_eq_true, if_false] at hw ⊢
      cases c.receiver with
      | client =>
        simp only [clientRecv, hd, decode_data, toNat_ofNat_mod, hw]
        exact ⟨(h.of_skip hm hmax r.lastAck hlast).fail, Nat.le_refl _, by simp⟩
      | serverSingle | serverMulti =>
        simp only [serverRecv, hd, decode_data, toNat_ofNat_mod, hw]
        refine ⟨(h.of_skip hm hmax r.lastAck hlast).fail, Nat.le_refl _, ?_⟩
        intro d hd'
        split at hd'
        · exact herr _ _ hd' _
        · simp at hd'
    | true =>
      simp only [if_true] at hw ⊢
      cases hrole : c.receiver with
      | client =>
        simp only [clientRecv, hd, decode_data, toNat_ofNat_mod, hw]
        split
        · refine ⟨keyF, by simp only; omega, ?_⟩
          intro d hd'
          split at hd'
          · exact herr _ _ hd' _
          · simp at hd'
        · split
          · split
            · rename_i d he
              refine ⟨key t (by omega), by simp only; omega, ?_⟩
              intro d' hd'
              simp only [Option.some.injEq] at hd'
              subst hd'
              exact hack _ _ he _ (Nat.le_refl _)
            · exact ⟨keyF, by simp only; omega, by simp⟩
          · exact ⟨key r.lastAck (by omega), by simp only; omega, by simp⟩
      | serverSingle | serverMulti =>
        simp only [serverRecv, hd, decode_data, toNat_ofNat_mod, hw, hnf]
        split
        · refine ⟨?_, by simp only; omega, ?_⟩
          · simpa only [hnf] using keyF
          · intro d hd'
            split at hd'
            · exact herr _ _ hd' _
            · simp at hd'
        · generalize ha : (if (ackDue c r.lastAck t (some (block file c.bs t).length) && sendOk) = true then
            c.emit nonce (some t) (.ack (UInt16.ofNat (t % 65536))) else none) = a
          cases a with
          | none =>
            simp only [Option.isSome_none, Bool.false_eq_true, if_false, Bool.false_or]
            exact ⟨key r.lastAck (by omega), by omega, by simp⟩
          | some d =>
            simp only [Option.isSome_some, if_true, Bool.false_or]
            refine ⟨key t (by omega), by omega, ?_⟩
            intro d' hd'
            simp only [Option.some.injEq] at hd'
            subst hd'
            split at ha
            · exact hack _ _ ha _ (Nat.le_refl _)
            · simp at ha
  · -- a block stored before or from the future
    rw [if_neg hnext] at hw
    have key : ∀ last', last' ≤ r.w.written →
        RInv c file (max seen t) ⟨{ r.w with mapper := (r.w.mapper.index (t % 65536)).1 }, last',
          r.total, r.finished, r.failed⟩ := fun last' hl => h.of_skip hm hmax last' hl
    cases hrole : c.receiver with
    | client =>
      simp only [clientRecv, hd, decode_data, toNat_ofNat_mod, hw]
      simp only [Bool.false_eq_true, if_false]
      split
      · split
        · rename_i d he
          refine ⟨key r.w.written (Nat.le_refl _), by simp only; omega, ?_⟩
          intro d' hd'
          simp only [Option.some.injEq] at hd'
          subst hd'
          exact hack _ _ he _ (Nat.le_refl _)
        · exact ⟨(key r.lastAck hlast).fail, by simp only; omega, by simp⟩
      · exact ⟨key r.lastAck hlast, by simp only; omega, by simp⟩
    | serverSingle | serverMulti =>
      simp only [serverRecv, hd, decode_data, toNat_ofNat_mod, hw]
      simp only [Bool.false_eq_true, if_false]
      generalize ha : (if (ackDue c r.lastAck r.w.written none && sendOk) = true then
        c.emit nonce (some r.w.written) (.ack (UInt16.ofNat (r.w.written % 65536))) else none) = a
      cases a with
      | none =>
        simp only [Option.isSome_none, Bool.false_eq_true, if_false]
        exact ⟨key r.lastAck hlast, Nat.le_refl _, by simp⟩
      | some d =>
        simp only [Option.isSome_some, if_true]
        refine ⟨key r.w.written (Nat.le_refl _), Nat.le_refl _, ?_⟩
        intro d' hd'
        simp only [Option.some.injEq] at hd'
        subst hd'
        split at ha
        · exact hack _ _ ha _ (Nat.le_refl _)
        · simp at ha

/-- An error packet at the receiving side. -/
theorem recv_error {c : Cfg} {r : RecvSt} {dg : Bytes} {e : ErrorCode} {io sendOk nonce}
    (hd : c.codec.dec dg = some (Packet.error e []).toBytes) :
    recvRecv c r dg io sendOk nonce = ({ r with failed := true }, none) := by
  unfold recvRecv
  cases c.receiver <;> simp only [clientRecv, serverRecv, hd, decode_error]

/-- Invariant of the sending side, refining the window `w`. -/
structure SInv (c : Cfg) (file : Bytes) (m : Mapper) (w : Window) (s : SendSt) : Prop where
  sim : ReaderSim file c.bs c.W m s.reader w
  mapper : m.Inv w.base
  total : s.total = bytesIn file c.bs w.base
  fin : s.finished = true → w.base = nblocks file c.bs
  done : w.base = nblocks file c.bs → s.finished = true ∨ s.failed = true

theorem SInv.fail {c file m w s} (h : SInv c file m w s) :
    SInv c file m w { s with failed := true } := by
  obtain ⟨h1, h2, h3, h4, h5⟩ := h
  constructor <;> simp_all

theorem SInv.reader {c file m w s w'} {r : Reader} (h : SInv c file m w s)
    (hs : ReaderSim file c.bs c.W m r w') (hw : w'.base = w.base) :
    SInv c file m w' { s with reader := r } := by
  obtain ⟨h1, h2, h3, h4, h5⟩ := h
  constructor <;> simp_all

theorem DataOk.mono {c file top top' d} (h : DataOk c file top d) (hl : top ≤ top') :
    DataOk c file top' d := by
  unfold DataOk at *
  split at h
  · obtain ⟨h1, h2, h3⟩ := h
    exact ⟨h1, by omega, h3⟩
  · exact h

theorem AckOk.mono {c n n' d} (h : AckOk c n d) (hl : n ≤ n') : AckOk c n' d := by
  unfold AckOk at *
  split at h
  · obtain ⟨h1, h2⟩ := h
    exact ⟨by omega, h2⟩
  · exact h

/-- The sender's turn. -/
theorem send_tick {c : Cfg} {file : Bytes} {m : Mapper} {w : Window} {s : SendSt} (hbs : 0 < c.bs)
    (hcap : c.bs ≤ c.cap) (h : SInv c file m w s) (retry fail wb : Bool) (net : SendRes) (nonce : Nat) :
    ∃ w', SInv c file m w' (sendTick c s retry fail wb net nonce).1 ∧ w'.base = w.base ∧
      w.top ≤ w'.top ∧ w'.top ≤ nblocks file c.bs ∧
      (∀ d, (sendTick c s retry fail wb net nonce).2 = some d → DataOk c file w'.top d) := by
  have hinv := h.sim.inv
  unfold sendTick
  by_cases hst : (s.finished || s.failed) = true
  · rw [if_pos hst]
    exact ⟨w, h, rfl, Nat.le_refl _, hinv.top_le, by simp⟩
  · rw [if_neg hst]
    have hn := h.sim.next hbs retry fail c.cap hcap
    have herr : ∀ (e : ErrorCode) (d : Dgram), c.emit nonce none (.error e []) = some d →
        ∀ k, DataOk c file k d := by
      intro e d he k
      obtain ⟨e1, e2⟩ := emit_some he
      unfold DataOk
      rw [e1]
      exact ⟨e, e2⟩
    rcases hn with ⟨-, h2, h3⟩ | ⟨h2, h3⟩
    · refine ⟨w, ?_, rfl, Nat.le_refl _, hinv.top_le, ?_⟩
      · cases c.sender <;> simp only [clientSendTick, serverSendTick, h2]
        · split
          · exact h.reader h3 rfl
          · exact (h.reader h3 rfl).fail
        · exact (h.reader h3 rfl).fail
        · exact (h.reader h3 rfl).fail
      · intro d hd
        cases hr : c.sender <;> rw [hr] at hd <;> simp only [clientSendTick, serverSendTick, h2] at hd
        · split at hd <;> simp at hd
        · split at hd
          · exact herr _ _ hd _
          · simp at hd
        · split at hd
          · exact herr _ _ hd _
          · simp at hd
    · cases ho : (w.next file c.bs c.W retry).2 with
      | none =>
        have hw : (w.next file c.bs c.W retry).1 = w := by
          unfold Window.next at ho ⊢
          split at ho
          · simp at ho
          · rw [if_neg (by assumption)]
            split at ho
            · simp at ho
            · rw [if_neg (by assumption)]
              split at ho
              · simp at ho
              · rw [if_neg (by assumption)]
        rw [ho, expect] at h2
        rw [hw] at h3
        refine ⟨w, ?_, rfl, Nat.le_refl _, hinv.top_le, ?_⟩
        · cases c.sender <;> simp only [clientSendTick, serverSendTick, h2] <;> exact h.reader h3 rfl
        · intro d hd
          cases hr : c.sender <;> rw [hr] at hd <;>
            simp only [clientSendTick, serverSendTick, h2] at hd <;> simp at hd
      | some x =>
        obtain ⟨i, again⟩ := x
        obtain ⟨f1, f2, f3, f4, f5⟩ := Window.next_some hinv ho
        rw [ho, expect] at h2
        rw [f5] at h3
        have hemit : ∀ d, c.emit nonce (some i)
            (dataPacket ⟨i % 65536, i, block file c.bs i, again⟩) = some d →
            DataOk c file (max w.top i) d := by
          intro d he
          obtain ⟨e1, e2⟩ := emit_some he
          unfold DataOk
          rw [e1]
          exact ⟨by omega, by omega, e2⟩
        have htop := hinv.top_le
        have hS := h.reader h3 rfl
        refine ⟨⟨w.base, i, max w.top i⟩, ?_, rfl, Nat.le_max_left _ _, Nat.max_le.mpr ⟨htop, f3⟩, ?_⟩
        · cases c.sender <;> simp only [clientSendTick, serverSendTick, h2]
          · split
            · exact hS
            · exact hS
            · exact hS.fail
          · exact hS
          · exact hS
        · intro d hd
          cases hr : c.sender <;> rw [hr] at hd <;> simp only [clientSendTick, serverSendTick, h2] at hd
          · split at hd
            · rename_i d' he
              simp only [Option.some.injEq] at hd
              subst hd
              exact hemit _ he
            · simp at hd
            · simp at hd
          · split at hd
            · exact hemit _ hd
            · simp at hd
          · split at hd
            · exact hemit _ hd
            · simp at hd

/-- A genuine acknowledgement at the sending side. -/
theorem send_recv_ack {c : Cfg} {file : Bytes} {m : Mapper} {w : Window} {s : SendSt} {dg : Bytes}
    {t : Nat} (hbs : 0 < c.bs) (h : SInv c file m w s)
    (hd : c.codec.dec dg = some (Packet.ack (UInt16.ofNat (t % 65536))).toBytes)
    (ht : t ≤ w.top) (hi : (m.index (t % 65536)).2 = t)
    (hm : (m.index (t % 65536)).1.Inv (max w.base t)) :
    ∃ w', SInv c file (m.index (t % 65536)).1 w' (sendRecv c s dg) ∧
      w'.base = max w.base t ∧ w'.top = w.top ∧ (sendRecv c s dg).failed = s.failed := by
  have hf := h.sim.free hbs (t % 65536) (by omega)
  rw [hi, Window.ack_eq _ _ _ _ ht] at hf
  obtain ⟨f1, f2⟩ := hf
  have hmono : bytesIn file c.bs w.base + (bytesIn file c.bs t - bytesIn file c.bs w.base) =
      bytesIn file c.bs (max w.base t) := by
    rcases Nat.le_total w.base t with hl | hl
    · rw [Nat.max_eq_right hl]
      have := bytesIn_mono file c.bs hl
      omega
    · rw [Nat.max_eq_left hl]
      have := bytesIn_mono file c.bs hl
      omega
  have htot := h.total
  have hfin2 := f2.finished
  have hinv' := f2.inv
  have hNle : w.base ≤ nblocks file c.bs := by
    have := h.sim.inv; obtain ⟨a, b, cc, dd⟩ := this; omega
  have hfin3 : (s.reader.free (t % 65536)).1.isFinished = true ↔
      max w.base t = nblocks file c.bs := by
    rw [hfin2, decide_eq_true_eq, Window.finished_iff hinv']; rfl
  refine ⟨⟨max w.base t, if w.base < t then t else w.cur, w.top⟩, ?_, rfl, rfl, ?_⟩
  · cases hr : c.sender <;>
      simp only [sendRecv, hr, clientSendRecv, serverSendRecv, hd, decode_ack, toNat_ofNat_mod, f1]
    · refine ⟨f2, hm, by simp only; omega, fun hf => hfin3.mp hf, fun hf => Or.inl (hfin3.mpr hf)⟩
    all_goals
      refine ⟨f2, hm, by simp only; omega, ?_, ?_⟩
      · intro hf
        simp only [Bool.or_eq_true] at hf
        rcases hf with hf | hf
        · have := h.fin hf
          have := hinv'.top_le
          simp only at *; omega
        · exact hfin3.mp hf
      · intro hf
        left
        simp only [Bool.or_eq_true]
        exact Or.inr (hfin3.mpr hf)
  · cases hr : c.sender <;>
      simp only [sendRecv, hr, clientSendRecv, serverSendRecv, hd, decode_ack, toNat_ofNat_mod, f1]

theorem send_recv_error {c : Cfg} {s : SendSt} {dg : Bytes} {e : ErrorCode}
    (hd : c.codec.dec dg = some (Packet.error e []).toBytes) :
    sendRecv c s dg = { s with failed := true } := by
  unfold sendRecv
  cases c.sender <;> simp only [clientSendRecv, serverSendRecv, hd, decode_error]

/-- Invariant of the whole system. -/
structure SysInv (c : Cfg) (file : Bytes) (m : Mapper) (w : Window) (s : Sys) : Prop where
  snd : SInv c file m w s.snd
  rcv : RInv c file s.seen s.rcv
  acked : s.acked = w.base
  seen : s.seen ≤ w.top
  base : w.base ≤ s.rcv.w.written
  data : ∀ d ∈ s.data, DataOk c file w.top d
  acks : ∀ d ∈ s.acks, AckOk c s.rcv.w.written d

theorem SysInv.init (c : Cfg) (k : Kind) (file : Bytes) (nonce : Nat) (hk : k = .single → c.W = 1) :
    SysInv c file Mapper.new Window.init (Sys.init c k file nonce) := by
  have hN := nblocks_pos file c.bs
  constructor
  · constructor
    · exact ReaderSim.init k file c.bs c.W hk
    · exact Mapper.inv_new
    · simp [Sys.init, Window.init, bytesIn]
    · simp [Sys.init]
    · simp only [Window.init]; omega
  · constructor <;> simp [Sys.init, Writer.new, bytesIn, Mapper.inv_new]
    intro h; omega
  · rfl
  · simp [Sys.init]
  · simp [Window.init]
  · simp [Sys.init]
  · intro d hd
    simp only [Sys.init, Option.mem_toList] at hd
    obtain ⟨e1, e2⟩ := emit_some hd
    unfold AckOk
    rw [e1]
    exact ⟨Nat.zero_le _, e2⟩

/-- Every event preserves the invariant; the stored blocks never decrease. -/
theorem SysInv.step {c : Cfg} {file : Bytes} {m : Mapper} {w : Window} {s : Sys} (hbs : 0 < c.bs)
    (hcap : c.bs ≤ c.cap) (hW : c.W ≤ 10000 ∨ nblocks file c.bs ≤ 55535)
    (h : SysInv c file m w s) (ev : Ev) :
    ∃ m' w', SysInv c file m' w' (s.step c (nblocks file c.bs) ev) ∧ w.base ≤ w'.base ∧
      s.rcv.w.written ≤ (s.step c (nblocks file c.bs) ev).rcv.w.written := by
  obtain ⟨hsnd, hrcv, hacked, hseen, hbase, hdata, hacks⟩ := h
  have hinv := hsnd.sim.inv
  have hwr := hrcv.seen
  cases ev with
  | tick retry fail wb net nonce =>
    obtain ⟨w', g1, g2, g3, g4, g5⟩ := send_tick hbs hcap hsnd retry fail wb net nonce
    refine ⟨m, w', ?_, by omega, Nat.le_refl _⟩
    simp only [Sys.step]
    refine ⟨g1, hrcv, by simp only; omega, by simp only; omega, by simp only; omega, ?_, hacks⟩
    intro d hd
    simp only [List.mem_append, Option.mem_toList] at hd
    rcases hd with hd | hd
    · exact g5 d hd
    · exact (hdata d hd).mono g3
  | toReceiver i ioOk sendOk nonce =>
    simp only [Sys.step]
    split
    · exact ⟨m, w, ⟨hsnd, hrcv, hacked, hseen, hbase, hdata, hacks⟩, Nat.le_refl _, Nat.le_refl _⟩
    · rename_i d hget
      split
      · exact ⟨m, w, ⟨hsnd, hrcv, hacked, hseen, hbase, hdata, hacks⟩, Nat.le_refl _, Nat.le_refl _⟩
      · rename_i hcond
        simp only [Bool.or_eq_true, Bool.and_eq_true, Bool.not_eq_true', not_or, not_and,
          Bool.not_eq_false] at hcond
        obtain ⟨hc1, hc2⟩ := hcond
        have hmem : d ∈ s.data := List.mem_of_getElem? hget
        have hok := hdata d hmem
        unfold DataOk at hok
        cases htag : d.tag with
        | none =>
          rw [htag] at hok
          obtain ⟨e, he⟩ := hok
          rw [recv_error he]
          refine ⟨m, w, ⟨hsnd, hrcv.fail, hacked, hseen, hbase, hdata, hacks⟩, Nat.le_refl _,
            Nat.le_refl _⟩
        | some t =>
          rw [htag] at hok hc2
          obtain ⟨ht1, ht2, he⟩ := hok
          have htop := hinv.top_le
          have hroom := hinv.room
          simp only [fresh, Bool.or_eq_true, decide_eq_true_eq] at hc2
          obtain ⟨hi, hm⟩ := s.rcv.w.mapper.index_fresh s.seen t (nblocks file c.bs) hrcv.mapper
            (by omega) (by omega) hc2 (by omega)
          obtain ⟨g1, g2, g3⟩ := recv_data hbs hrcv he ht1 (by omega) hi hm ioOk sendOk nonce
          refine ⟨m, w, ⟨hsnd, ?_, hacked, ?_, ?_, hdata, ?_⟩, Nat.le_refl _, g2⟩
          · simpa only [newest] using g1
          · simp only [newest]; omega
          · exact Nat.le_trans hbase g2
          · intro d' hd'
            simp only [List.mem_append, Option.mem_toList] at hd'
            rcases hd' with hd' | hd'
            · exact g3 d' hd'
            · exact (hacks d' hd').mono g2
  | toSender i =>
    simp only [Sys.step]
    split
    · exact ⟨m, w, ⟨hsnd, hrcv, hacked, hseen, hbase, hdata, hacks⟩, Nat.le_refl _, Nat.le_refl _⟩
    · rename_i d hget
      split
      · exact ⟨m, w, ⟨hsnd, hrcv, hacked, hseen, hbase, hdata, hacks⟩, Nat.le_refl _, Nat.le_refl _⟩
      · rename_i hcond
        simp only [Bool.or_eq_true, Bool.and_eq_true, Bool.not_eq_true', not_or, not_and,
          Bool.not_eq_false] at hcond
        obtain ⟨hc1, hc2⟩ := hcond
        have hmem : d ∈ s.acks := List.mem_of_getElem? hget
        have hok := hacks d hmem
        unfold AckOk at hok
        cases htag : d.tag with
        | none =>
          rw [htag] at hok
          obtain ⟨e, he⟩ := hok
          rw [send_recv_error he]
          exact ⟨m, w, ⟨hsnd.fail, hrcv, hacked, hseen, hbase, hdata, hacks⟩, Nat.le_refl _,
            Nat.le_refl _⟩
        | some t =>
          rw [htag] at hok hc2
          obtain ⟨ht2, he⟩ := hok
          have htop := hinv.top_le
          have hroom := hinv.room
          simp only [fresh, Bool.or_eq_true, decide_eq_true_eq] at hc2
          obtain ⟨hi, hm⟩ := m.index_fresh w.base t (nblocks file c.bs) hsnd.mapper
            (by omega) (by omega) (by omega) (by omega)
          obtain ⟨w', g1, g2, g3, g4⟩ := send_recv_ack hbs hsnd he (by omega) hi hm
          refine ⟨_, w', ⟨g1, hrcv, ?_, ?_, ?_, ?_, hacks⟩, by omega, Nat.le_refl _⟩
          · simp only [newest]; omega
          · simp only; omega
          · simp only; omega
          · simp only [g3]; exact hdata
  | abortSender =>
    simp only [Sys.step]
    split
    · exact ⟨m, w, ⟨hsnd, hrcv, hacked, hseen, hbase, hdata, hacks⟩, Nat.le_refl _, Nat.le_refl _⟩
    exact ⟨m, w, ⟨hsnd.fail, hrcv, hacked, hseen, hbase, hdata, hacks⟩, Nat.le_refl _, Nat.le_refl _⟩
  | abortReceiver =>
    simp only [Sys.step]
    split
    · exact ⟨m, w, ⟨hsnd, hrcv, hacked, hseen, hbase, hdata, hacks⟩, Nat.le_refl _, Nat.le_refl _⟩
    exact ⟨m, w, ⟨hsnd, hrcv.fail, hacked, hseen, hbase, hdata, hacks⟩, Nat.le_refl _, Nat.le_refl _⟩

/-- Every reachable state satisfies the invariant. -/
theorem SysInv.run {c : Cfg} {file : Bytes} (hbs : 0 < c.bs)
    (hcap : c.bs ≤ c.cap) (hW : c.W ≤ 10000 ∨ nblocks file c.bs ≤ 55535) (evs : List Ev) :
    ∀ {m : Mapper} {w : Window} {s : Sys}, SysInv c file m w s →
    ∃ m' w', SysInv c file m' w' (s.run c (nblocks file c.bs) evs) ∧ w.base ≤ w'.base ∧
      s.rcv.w.written ≤ (s.run c (nblocks file c.bs) evs).rcv.w.written := by
  induction evs with
  | nil => intro m w s h; exact ⟨m, w, h, Nat.le_refl _, Nat.le_refl _⟩
  | cons ev evs ih =>
    intro m w s h
    obtain ⟨m1, w1, h1, b1, c1⟩ := h.step hbs hcap hW ev
    obtain ⟨m2, w2, h2, b2, c2⟩ := ih h1
    exact ⟨m2, w2, h2, by omega, Nat.le_trans c1 c2⟩

end Tftp

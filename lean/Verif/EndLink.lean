import Verif.TransferFin
/-
C52, C53, first part: one sending and one receiving side with different configurations (`Cfg`) which agree on the block size and on how
datagrams are read. The steps of the two sides, in terms of what a datagram means to its reader. Used by EndUp.lean and EndDown.lean,
where the two sides are the real client and the real server.
-/
namespace Tftp
open Spec

/-- How the receiving side reads a datagram which was sent when the sender had `mark` bytes confirmed: if as data, then it is a block
of the file which was not confirmed then, and not beyond `top`. -/
def DataFine (D : Bytes → Option Bytes) (file : Bytes) (bs top mark : Nat) (d : Bytes) : Prop :=
  ∀ b blk x, D d = some b → Packet.fromBytes b = .ok (.data blk x) →
    ∃ t p, p < t ∧ t ≤ top ∧ mark = bytesIn file bs p ∧ blk = UInt16.ofNat (t % 65536) ∧ x = block file bs t ∧ b = (Packet.data blk x).toBytes

/-- How the sending side reads a datagram: if as an acknowledgement, then of a stored block. -/
def AckFine (D : Bytes → Option Bytes) (file : Bytes) (bs written mark : Nat) (d : Bytes) : Prop :=
  ∀ b blk, D d = some b → Packet.fromBytes b = .ok (.ack blk) →
    ∃ t p, p ≤ t ∧ t ≤ written ∧ mark = bytesIn file bs p ∧ blk = UInt16.ofNat (t % 65536) ∧ b = (Packet.ack blk).toBytes

theorem DataFine.mono {D file bs top top' mark d} (h : DataFine D file bs top mark d) (hl : top ≤ top') :
    DataFine D file bs top' mark d := by
  intro b blk x h1 h2
  obtain ⟨t, p, a, b', c⟩ := h b blk x h1 h2
  exact ⟨t, p, a, by omega, c⟩

theorem AckFine.mono {D file bs n n' mark d} (h : AckFine D file bs n mark d) (hl : n ≤ n') :
    AckFine D file bs n' mark d := by
  intro b blk h1 h2
  obtain ⟨t, p, a, b', c⟩ := h b blk h1 h2
  exact ⟨t, p, a, by omega, c⟩

/-- A packet which is neither data nor acknowledgement is fine in both directions. -/
theorem fine_of_packet {D : Bytes → Option Bytes} {d : Bytes} {p : Packet} (h : D d = some p.toBytes)
    (hp : Packet.fromBytes p.toBytes = .ok p) (hd : ∀ b x, p ≠ .data b x) (ha : ∀ b, p ≠ .ack b)
    (file : Bytes) (bs n mark : Nat) : DataFine D file bs n mark d ∧ AckFine D file bs n mark d := by
  constructor
  · intro b blk x h1 h2
    rw [h] at h1; cases h1
    rw [hp] at h2; cases h2
    exact absurd rfl (hd _ _)
  · intro b blk h1 h2
    rw [h] at h1; cases h1
    rw [hp] at h2; cases h2
    exact absurd rfl (ha _)

/-- A datagram which is not readable is fine. -/
theorem fine_of_unreadable {D : Bytes → Option Bytes} {d : Bytes} (h : D d = none) (file : Bytes) (bs n mark : Nat) :
    DataFine D file bs n mark d ∧ AckFine D file bs n mark d := by
  constructor
  · intro b blk x h1; rw [h] at h1; cases h1
  · intro b blk h1; rw [h] at h1; cases h1

/-- An acknowledgement as data. -/
theorem dataFine_of_ack {D : Bytes → Option Bytes} {d : Bytes} {k : UInt16} (h : D d = some (Packet.ack k).toBytes)
    (file : Bytes) (bs n mark : Nat) : DataFine D file bs n mark d := by
  intro b blk x h1 h2
  rw [h] at h1; cases h1
  rw [decode_ack] at h2; cases h2

theorem ackFine_zero {D : Bytes → Option Bytes} {d : Bytes} (h : D d = some (Packet.ack 0).toBytes)
    (file : Bytes) (bs n : Nat) : AckFine D file bs n 0 d := by
  intro b blk h1 h2
  rw [h] at h1; cases h1
  rw [decode_ack] at h2; cases h2
  exact ⟨0, 0, Nat.le_refl _, Nat.zero_le _, by simp [bytesIn], rfl, rfl⟩

theorem fine_of_error {D : Bytes → Option Bytes} {d : Bytes} {e : ErrorCode} (h : D d = some (Packet.error e []).toBytes)
    (file : Bytes) (bs n mark : Nat) : DataFine D file bs n mark d ∧ AckFine D file bs n mark d :=
  fine_of_packet h (decode_error e) (by simp) (by simp) file bs n mark

/-- Confirmed bytes bound confirmed blocks. -/
theorem blocks_of_bytes {file : Bytes} {bs b p late : Nat} (hbs : 0 < bs) (hb : b ≤ nblocks file bs)
    (h : bytesIn file bs b ≤ bytesIn file bs p + late) : b ≤ p + late / bs + 1 := by
  unfold nblocks at hb
  have h1 : (b - 1) * bs ≤ file.length := by
    have : b - 1 ≤ file.length / bs := by
      have := Nat.zero_le (file.length / bs)
      generalize file.length / bs = q at *
      omega
    calc (b - 1) * bs ≤ file.length / bs * bs := Nat.mul_le_mul_right _ this
      _ ≤ file.length := Nat.div_mul_le_self _ _
  have h2 : (b - 1) * bs ≤ bytesIn file bs b := by
    simp only [bytesIn]
    have : (b - 1) * bs ≤ b * bs := Nat.mul_le_mul_right _ (by omega)
    omega
  have h3 : bytesIn file bs p ≤ p * bs := by simp only [bytesIn]; omega
  have h4 : (b - 1) * bs ≤ p * bs + late := by omega
  have h5 : b - 1 ≤ (p * bs + late) / bs := (Nat.le_div_iff_mul_le hbs).mpr h4
  have h6 : (p * bs + late) / bs = p + late / bs := by
    rw [Nat.add_comm, Nat.add_mul_div_right _ _ hbs, Nat.add_comm]
  omega

/-- What is known about the age of a datagram: sent when `mark` bytes were confirmed, now `now` are; or the file is small. -/
def Timely (file : Bytes) (bs W late mark now : Nat) : Prop :=
  nblocks file bs ≤ 55535 ∨ (now ≤ mark + late ∧ late / bs + W + 1 ≤ 10000)

/-- The sending side's turn. -/
theorem link_tick {c : Cfg} {D : Bytes → Option Bytes} {file : Bytes} {m : Mapper} {w : Window} {s : SendSt} (hbs : 0 < c.bs)
    (hcap : c.bs ≤ c.cap) (hD : c.codec.dec = D) (h : SInv c file m w s) (retry fail wb : Bool) (net : SendRes) (nonce : Nat) :
    ∃ w', SInv c file m w' (sendTick c s retry fail wb net nonce).1 ∧ w'.base = w.base ∧ w.top ≤ w'.top ∧
      (∀ d, (sendTick c s retry fail wb net nonce).2 = some d →
        DataFine D file c.bs w'.top (bytesIn file c.bs w.base) d.bytes ∧
        ∃ p, c.emit nonce d.tag p = some d ∧ ((∃ b x, p = .data b x ∧ x.length ≤ c.bs) ∨ ∃ e, p = .error e [])) := by
  have hinv := h.sim.inv
  unfold sendTick
  by_cases hst : (s.finished || s.failed) = true
  · rw [if_pos hst]
    exact ⟨w, h, rfl, Nat.le_refl _, by simp⟩
  · rw [if_neg hst]
    have hn := h.sim.next hbs retry fail c.cap hcap
    have herr : ∀ (e : ErrorCode) (d : Dgram), c.emit nonce none (.error e []) = some d → ∀ k,
        DataFine D file c.bs k (bytesIn file c.bs w.base) d.bytes ∧
        ∃ p, c.emit nonce d.tag p = some d ∧ ((∃ b x, p = .data b x ∧ x.length ≤ c.bs) ∨ ∃ e, p = .error e []) := by
      intro e d he k
      obtain ⟨e1, e2⟩ := emit_some he
      rw [hD] at e2
      exact ⟨(fine_of_error e2 _ _ _ _).1, _, by rw [e1]; exact he, .inr ⟨e, rfl⟩⟩
    rcases hn with ⟨-, h2, h3⟩ | ⟨h2, h3⟩
    · refine ⟨w, ?_, rfl, Nat.le_refl _, ?_⟩
      · cases c.sender <;> simp only [clientSendTick, serverSendTick, h2]
        · split
          · exact h.reader h3 rfl
          · exact (h.reader h3 rfl).fail
        · exact (h.reader h3 rfl).fail
        · exact (h.reader h3 rfl).fail
      · intro d hd
        cases hr : c.sender <;> rw [hr] at hd <;> simp only [clientSendTick, serverSendTick, h2] at hd
        · split at hd <;> simp at hd
        · split at hd
          · exact herr _ _ hd _
          · simp at hd
        · split at hd
          · exact herr _ _ hd _
          · simp at hd
    · cases ho : (w.next file c.bs c.W retry).2 with
      | none =>
        have hw : (w.next file c.bs c.W retry).1 = w := by
          unfold Window.next at ho ⊢
          split at ho
          · simp at ho
          · rw [if_neg (by assumption)]
            split at ho
            · simp at ho
            · rw [if_neg (by assumption)]
              split at ho
              · simp at ho
              · rw [if_neg (by assumption)]
        rw [ho, expect] at h2
        rw [hw] at h3
        refine ⟨w, ?_, rfl, Nat.le_refl _, ?_⟩
        · cases c.sender <;> simp only [clientSendTick, serverSendTick, h2] <;> exact h.reader h3 rfl
        · intro d hd
          cases hr : c.sender <;> rw [hr] at hd <;>
            simp only [clientSendTick, serverSendTick, h2] at hd <;> simp at hd
      | some x =>
        obtain ⟨i, again⟩ := x
        obtain ⟨f1, f2, f3, f4, f5⟩ := Window.next_some hinv ho
        rw [ho, expect] at h2
        rw [f5] at h3
        have hemit : ∀ d, c.emit nonce (some i)
            (dataPacket ⟨i % 65536, i, block file c.bs i, again⟩) = some d →
            DataFine D file c.bs (max w.top i) (bytesIn file c.bs w.base) d.bytes ∧
            ∃ p, c.emit nonce d.tag p = some d ∧ ((∃ b x, p = .data b x ∧ x.length ≤ c.bs) ∨ ∃ e, p = .error e []) := by
          intro d he
          obtain ⟨e1, e2⟩ := emit_some he
          rw [hD] at e2
          refine ⟨?_, _, by rw [e1]; exact he, .inl ⟨_, _, rfl, by simp [block]; omega⟩⟩
          intro b blk x g1 g2
          rw [e2] at g1; cases g1
          rw [dataPacket, decode_data] at g2; cases g2
          exact ⟨i, w.base, by omega, by omega, rfl, rfl, rfl, rfl⟩
        have hS := h.reader h3 rfl
        refine ⟨⟨w.base, i, max w.top i⟩, ?_, rfl, Nat.le_max_left _ _, ?_⟩
        · cases c.sender <;> simp only [clientSendTick, serverSendTick, h2]
          · split
            · exact hS
            · exact hS
            · exact hS.fail
          · exact hS
          · exact hS
        · intro d hd
          cases hr : c.sender <;> rw [hr] at hd <;> simp only [clientSendTick, serverSendTick, h2] at hd
          · split at hd
            · rename_i d' he
              simp only [Option.some.injEq] at hd
              subst hd
              exact hemit _ he
            · simp at hd
            · simp at hd
          · split at hd
            · exact hemit _ hd
            · simp at hd
          · split at hd
            · exact hemit _ hd
            · simp at hd

/-- A datagram arrives at the receiving side. -/
theorem link_recv {c : Cfg} {D : Bytes → Option Bytes} {file : Bytes} {seen base top W late mark now : Nat} {r : RecvSt} {dg : Bytes}
    (hbs : 0 < c.bs) (hD : c.codec.dec = D) (h : RInv c file seen r) (hb : base ≤ r.w.written) (hseen : seen ≤ top)
    (htop : top ≤ nblocks file c.bs) (hroom : top - base ≤ W) (hnow : now = bytesIn file c.bs base)
    (hW : W ≤ 10000 ∨ nblocks file c.bs ≤ 55535)
    (hd : DataFine D file c.bs top mark dg) (ht : Timely file c.bs W late mark now) (ioOk sendOk : Bool) (nonce : Nat) :
    ∃ seen', RInv c file seen' (recvRecv c r dg (if ioOk then .all else .err) sendOk nonce).1 ∧ seen' ≤ top ∧
      r.w.written ≤ (recvRecv c r dg (if ioOk then .all else .err) sendOk nonce).1.w.written ∧
      (∀ d, (recvRecv c r dg (if ioOk then .all else .err) sendOk nonce).2 = some d →
        AckFine D file c.bs (recvRecv c r dg (if ioOk then .all else .err) sendOk nonce).1.w.written now d.bytes ∧
        ∃ p, c.emit nonce d.tag p = some d ∧ ((∃ b, p = .ack b) ∨ ∃ e, p = .error e [])) := by
  have hwr := h.seen
  -- a datagram which is not data
  have quiet : ∀ s, (recvRecv c r dg (if ioOk then .all else .err) sendOk nonce) = (s, none) → s = r ∨ s = { r with failed := true } →
      ∃ seen', RInv c file seen' (recvRecv c r dg (if ioOk then .all else .err) sendOk nonce).1 ∧ seen' ≤ top ∧
      r.w.written ≤ (recvRecv c r dg (if ioOk then .all else .err) sendOk nonce).1.w.written ∧
      (∀ d, (recvRecv c r dg (if ioOk then .all else .err) sendOk nonce).2 = some d →
        AckFine D file c.bs (recvRecv c r dg (if ioOk then .all else .err) sendOk nonce).1.w.written now d.bytes ∧
        ∃ p, c.emit nonce d.tag p = some d ∧ ((∃ b, p = .ack b) ∨ ∃ e, p = .error e [])) := by
    intro s hs h1
    rw [hs]
    refine ⟨seen, ?_, hseen, ?_, by simp⟩
    · rcases h1 with rfl | rfl
      · exact h
      · exact h.fail
    · rcases h1 with rfl | rfl <;> exact Nat.le_refl _
  cases hdec : c.codec.dec dg with
  | none =>
    cases hr : c.receiver with
    | client => exact quiet _ (by unfold recvRecv; rw [hr]; simp only [clientRecv, hdec]) (.inr rfl)
    | serverSingle | serverMulti => exact quiet _ (by unfold recvRecv; rw [hr]; simp only [serverRecv, hdec]) (.inl rfl)
  | some b =>
    cases hp : Packet.fromBytes b with
    | error e =>
      refine quiet r ?_ (.inl rfl)
      unfold recvRecv
      cases c.receiver <;> simp only [clientRecv, serverRecv, hdec, hp]
    | ok p =>
      cases p with
      | read x | write x | ack x | optionalAck x =>
        refine quiet r ?_ (.inl rfl)
        unfold recvRecv
        cases c.receiver <;> simp only [clientRecv, serverRecv, hdec, hp]
      | error x y =>
        refine quiet { r with failed := true } ?_ (.inr rfl)
        unfold recvRecv
        cases c.receiver <;> simp only [clientRecv, serverRecv, hdec, hp]
      | data blk x =>
        obtain ⟨t, p, ht1, ht2, hmk, rfl, rfl, hb'⟩ := hd b blk x (by rw [← hD]; exact hdec) hp
        have hlate : seen ≤ t + 10000 ∨ nblocks file c.bs ≤ 55535 := by
          rcases ht with ht | ⟨ht, hl⟩
          · exact .inr ht
          · left
            have := blocks_of_bytes (p := p) (late := late) hbs (show base ≤ nblocks file c.bs by omega) (by rw [← hnow, ← hmk]; exact ht)
            omega
        obtain ⟨hi, hm⟩ := r.w.mapper.index_fresh seen t (nblocks file c.bs) h.mapper (by omega) (by omega) hlate (by omega)
        rw [hb'] at hdec
        obtain ⟨g1, g2, -⟩ := recv_data hbs h hdec (by omega) (by omega) hi hm ioOk sendOk nonce
        refine ⟨_, g1, by omega, g2, ?_⟩
        intro d hd'
        have hgen : ∀ n, c.emit nonce (some n) (.ack (UInt16.ofNat (n % 65536))) = some d → n = r.w.written ∨ n = r.w.written + 1 →
            ∀ k, n ≤ k → AckFine D file c.bs k now d.bytes ∧
            ∃ p, c.emit nonce d.tag p = some d ∧ ((∃ b, p = .ack b) ∨ ∃ e, p = .error e []) := by
          intro n he hn k hk
          obtain ⟨e1, e2⟩ := emit_some he
          refine ⟨?_, _, by rw [e1]; exact he, .inl ⟨_, rfl⟩⟩
          intro b' blk' q1 q2
          rw [← hD, e2] at q1; cases q1
          rw [decode_ack] at q2; cases q2
          exact ⟨n, base, by omega, hk, hnow, rfl, rfl⟩
        have herr : ∀ e, c.emit nonce none (.error e []) = some d → ∀ k, AckFine D file c.bs k now d.bytes ∧
            ∃ p, c.emit nonce d.tag p = some d ∧ ((∃ b, p = .ack b) ∨ ∃ e, p = .error e []) := by
          intro e he k
          obtain ⟨e1, e2⟩ := emit_some he
          rw [hD] at e2
          exact ⟨(fine_of_error e2 _ _ _ _).2, _, by rw [e1]; exact he, .inr ⟨e, rfl⟩⟩
        have hw := write_cases (t := t) h hi ioOk
        revert hd' g2
        unfold recvRecv
        by_cases hnext : t = r.w.written + 1
        · rw [if_pos hnext] at hw
          cases ioOk with
          | false =>
            simp only [Bool.false_eq_true, if_false] at hw ⊢
            cases c.receiver <;> simp only [clientRecv, serverRecv, hdec, decode_data, toNat_ofNat_mod, hw] <;> intro _ hd'
            · cases hd'
            all_goals
              split at hd'
              · exact herr _ hd' _
              · cases hd'
          | true =>
            simp only [if_true] at hw ⊢
            cases c.receiver <;> simp only [clientRecv, serverRecv, hdec, decode_data, toNat_ofNat_mod, hw] <;> intro g2 hd'
            · split at hd'
              · rename_i hc; rw [if_pos hc]
                split at hd'
                · exact herr _ hd' _
                · cases hd'
              · rename_i hc; rw [if_neg hc]
                split at hd'
                · rename_i hc2
                  rw [if_pos hc2]
                  split at hd'
                  · rename_i d2 he
                    simp only [Option.some.injEq] at hd'
                    subst hd'
                    exact hgen t he (.inr hnext) _ (Nat.le_refl _)
                  · cases hd'
                · cases hd'
            all_goals
              split at hd'
              · rename_i hc; rw [if_pos hc]
                split at hd'
                · exact herr _ hd' _
                · cases hd'
              · rename_i hc
                rw [if_neg hc]
                simp only at hd'
                split at hd'
                · have := hgen t hd' (.inr hnext) t (Nat.le_refl _)
                  refine ⟨this.1.mono ?_, this.2⟩
                  dsimp only
                  repeat' split
                  all_goals exact Nat.le_refl _
                · cases hd'
        · rw [if_neg hnext] at hw
          cases c.receiver <;> simp only [clientRecv, serverRecv, hdec, decode_data, toNat_ofNat_mod, hw, Bool.false_eq_true, if_false] <;>
            intro g2 hd'
          · split at hd'
            · rename_i hc2
              rw [if_pos hc2]
              split at hd'
              · rename_i d2 he
                simp only [Option.some.injEq] at hd'
                subst hd'
                exact hgen r.w.written he (.inl rfl) _ (Nat.le_refl _)
              · cases hd'
            · cases hd'
          all_goals
            split at hd'
            · have := hgen r.w.written hd' (.inl rfl) r.w.written (Nat.le_refl _)
              refine ⟨this.1.mono ?_, this.2⟩
              repeat' split
              all_goals exact Nat.le_refl _
            · cases hd'

/-- A datagram arrives at the sending side. -/
theorem link_ack {c : Cfg} {D : Bytes → Option Bytes} {file : Bytes} {m : Mapper} {w : Window} {s : SendSt}
    {written late mark : Nat} {dg : Bytes} (hbs : 0 < c.bs) (hD : c.codec.dec = D) (h : SInv c file m w s)
    (hb : w.base ≤ written) (hwr : written ≤ w.top) (hW : c.W ≤ 10000 ∨ nblocks file c.bs ≤ 55535)
    (hd : AckFine D file c.bs written mark dg)
    (ht : Timely file c.bs c.W late mark (bytesIn file c.bs w.base)) :
    ∃ m' w', SInv c file m' w' (sendRecv c s dg) ∧ w.base ≤ w'.base ∧ w'.base ≤ written ∧ w'.top = w.top := by
  have hinv := h.sim.inv
  have htop := hinv.top_le
  have hroom := hinv.room
  have quiet : ∀ s', sendRecv c s dg = s' → s' = s ∨ s' = { s with failed := true } →
      ∃ m' w', SInv c file m' w' (sendRecv c s dg) ∧ w.base ≤ w'.base ∧ w'.base ≤ written ∧ w'.top = w.top := by
    intro s' hs h1
    rw [hs]
    refine ⟨m, w, ?_, Nat.le_refl _, hb, rfl⟩
    rcases h1 with rfl | rfl
    · exact h
    · exact h.fail
  cases hdec : c.codec.dec dg with
  | none =>
    cases hr : c.sender with
    | client => exact quiet _ (by unfold sendRecv; rw [hr]; simp only [clientSendRecv, hdec]) (.inr rfl)
    | serverSingle | serverMulti => exact quiet _ (by unfold sendRecv; rw [hr]; simp only [serverSendRecv, hdec]) (.inl rfl)
  | some b =>
    cases hp : Packet.fromBytes b with
    | error e =>
      refine quiet s ?_ (.inl rfl)
      unfold sendRecv
      cases c.sender <;> simp only [clientSendRecv, serverSendRecv, hdec, hp]
    | ok p =>
      cases p with
      | read x | write x | data x y | optionalAck x =>
        refine quiet s ?_ (.inl rfl)
        unfold sendRecv
        cases c.sender <;> simp only [clientSendRecv, serverSendRecv, hdec, hp]
      | error x y =>
        refine quiet { s with failed := true } ?_ (.inr rfl)
        unfold sendRecv
        cases c.sender <;> simp only [clientSendRecv, serverSendRecv, hdec, hp]
      | ack blk =>
        obtain ⟨t, p, ht1, ht2, hmk, rfl, hb'⟩ := hd b blk (by rw [← hD]; exact hdec) hp
        have hlate : w.base ≤ t + 10000 ∨ nblocks file c.bs ≤ 55535 := by
          rcases ht with ht | ⟨ht, hl⟩
          · exact .inr ht
          · left
            have := blocks_of_bytes (p := p) (late := late) hbs (show w.base ≤ nblocks file c.bs by omega) (by rw [← hmk]; exact ht)
            omega
        obtain ⟨hi, hm⟩ := m.index_fresh w.base t (nblocks file c.bs) h.mapper (by omega) (by omega) hlate (by omega)
        rw [hb'] at hdec
        obtain ⟨w', g1, g2, g3, -⟩ := send_recv_ack hbs h hdec (by omega) hi hm
        exact ⟨_, w', g1, by omega, by omega, g3⟩

end Tftp

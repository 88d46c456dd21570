import Verif.TransferInv
/- Second invariant of a transfer: what completion and failure flags mean. -/
namespace Tftp
open Spec

/-- Result of the receiving side on a genuine data packet, case by case. -/
theorem recv_cases {c : Cfg} {file : Bytes} {seen t : Nat} {r : RecvSt} {dg : Bytes} (hbs : 0 < c.bs)
    (h : RInv c file seen r)
    (hd : c.codec.dec dg =
      some (Packet.data (UInt16.ofNat (t % 65536)) (block file c.bs t)).toBytes)
    (ht : 1 ≤ t) (htN : t ≤ nblocks file c.bs)
    (hi : (r.w.mapper.index (t % 65536)).2 = t) (ioOk sendOk : Bool) (nonce : Nat)
    (P : RecvSt × Option Dgram → Prop)
    -- storage or sending failure, or too large
    (hfail : ∀ w' e, (sendOk = false ∨ ioOk = false ∨ (t = r.w.written + 1 ∧ file.length > c.max)) →
      (e = none ∨ ∃ d, e = some d ∧ d.tag = none) → (w'.written = r.w.written ∨ (w'.written = t ∧ t = r.w.written + 1 ∧
        (c.receiver = .client ∨ file.length > c.max))) →
      P (⟨w', r.lastAck, r.total, r.finished, true⟩, e))
    -- stored
    (hok : ∀ w' last' e, t = r.w.written + 1 → w'.written = t → (e = none ∧ last' = r.lastAck ∨
        (∃ d, e = some d ∧ d.tag = some t ∧ last' = t)) →
      (e = none → (c.receiver = .client ∨ sendOk = true) → t ≠ nblocks file c.bs) →
      P (⟨w', last', r.total + (block file c.bs t).length, decide (t = nblocks file c.bs), r.failed⟩, e))
    -- not stored, acknowledged again
    (hdup : ∀ w' d, t ≠ r.w.written + 1 → w'.written = r.w.written → d.tag = some r.w.written →
      P (⟨w', r.w.written, r.total, r.finished, r.failed⟩, some d))
    -- not stored, server can not send
    (hmute : ∀ w', t ≠ r.w.written + 1 → w'.written = r.w.written → sendOk = false → c.receiver ≠ .client →
      P (⟨w', r.lastAck, r.total, r.finished, r.failed⟩, none)) :
    P (recvRecv c r dg (if ioOk then .all else .err) sendOk nonce) := by
  have hw := write_cases (t := t) h hi ioOk
  have hfinN := h.fin
  have hemit : ∀ n : Nat, ∃ d, c.emit nonce (some n) (.ack (UInt16.ofNat (n % 65536))) = some d ∧
      d.tag = some n := by
    intro n
    obtain ⟨d, hd⟩ := emit_isSome (c := c) (n := nonce) (tag := some n)
      (p := .ack (UInt16.ofNat (n % 65536))) (by simp [Packet.toBytes, be16])
      (by simp [Packet.toBytes, be16])
    exact ⟨d, hd, (emit_some hd).1⟩
  have herr : ∀ e : ErrorCode, ∀ b : Bool,
      (if b then c.emit nonce none (.error e []) else none) = none ∨
      ∃ d, (if b then c.emit nonce none (.error e []) else none) = some d ∧ d.tag = none := by
    intro e b
    cases b with
    | false => left; rfl
    | true =>
      simp only [if_true]
      cases hx : c.emit nonce none (.error e []) with
      | none => left; rfl
      | some d => right; exact ⟨d, rfl, (emit_some hx).1⟩
  unfold recvRecv
  by_cases hnext : t = r.w.written + 1
  · rw [if_pos hnext] at hw
    have hwN : r.w.written + 1 ≤ nblocks file c.bs := by omega
    have hnf : r.finished = false := by
      cases hf : r.finished with
      | false => rfl
      | true => have := hfinN hf; omega
    have hsh := block_short_iff file c.bs t hbs ht htN
    have hdec : decide ((block file c.bs t).length < c.bs) = decide (t = nblocks file c.bs) := by
      rw [decide_eq_decide]; exact hsh
    have hsize : r.total + (block file c.bs t).length > c.max → file.length > c.max := by
      intro hgt
      have h1 := h.total_le
      have hlen := block_length file c.bs t ht
      have hmono := bytesIn_mono file c.bs (show t - 1 ≤ t by omega)
      have : bytesIn file c.bs t ≤ file.length := by simp only [bytesIn]; omega
      have e : t - 1 = r.w.written := by omega
      rw [e] at hlen hmono
      omega
    cases ioOk with
    | false =>
      simp only [Bool.false_eq_true, if_false] at hw ⊢
      cases hrole : c.receiver with
      | client =>
        simp only [clientRecv, hd, decode_data, toNat_ofNat_mod, hw]
        exact hfail _ _ (by simp) (Or.inl rfl) (Or.inl rfl)
      | serverSingle | serverMulti =>
        simp only [serverRecv, hd, decode_data, toNat_ofNat_mod, hw]
        exact hfail _ _ (by simp) (herr _ _) (Or.inl rfl)
    | true =>
      simp only [if_true] at hw ⊢
      obtain ⟨d, hd1, hd2⟩ := hemit t
      cases hrole : c.receiver with
      | client =>
        simp only [clientRecv, hd, decode_data, toNat_ofNat_mod, hw, hd1, hdec]
        split
        · rename_i hgt
          exact hfail _ _ (Or.inr (Or.inr ⟨hnext, hsize (by simpa using hgt)⟩)) (herr _ _)
            (Or.inr ⟨rfl, hnext, Or.inl hrole⟩)
        · split
          · cases sendOk with
            | true => exact hok _ _ _ hnext rfl (Or.inr ⟨d, rfl, hd2, rfl⟩) (by simp)
            | false => exact hfail _ _ (Or.inl rfl) (Or.inl rfl) (Or.inr ⟨rfl, hnext, Or.inl hrole⟩)
          · rename_i hdue
            refine hok _ _ _ hnext rfl (Or.inl ⟨rfl, rfl⟩) ?_
            intro _ _ hN
            apply hdue
            simp only [ackDue, Option.getD_some, Bool.or_eq_true, decide_eq_true_eq]
            right
            exact hsh.mpr hN
      | serverSingle | serverMulti =>
        simp only [serverRecv, hd, decode_data, toNat_ofNat_mod, hw, hnf, hd1, hdec]
        split
        · rename_i hgt
          have := hfail ⟨file.take (bytesIn file c.bs t), (r.w.mapper.index (t % 65536)).1, t⟩ _
            (Or.inr (Or.inr ⟨hnext, hsize (by simpa using hgt)⟩)) (herr .diskFull sendOk)
            (Or.inr ⟨rfl, hnext, Or.inr (hsize (by simpa using hgt))⟩)
          rw [hnf] at this
          exact this
        · by_cases hs : (ackDue c r.lastAck t (some (block file c.bs t).length) && sendOk) = true
          · simp only [hs, if_true, Option.isSome_some, Bool.false_or]
            exact hok _ _ _ hnext rfl (Or.inr ⟨d, rfl, hd2, rfl⟩) (by simp)
          · simp only [hs, Bool.false_eq_true, if_false, Option.isSome_none, Bool.false_or]
            refine hok _ _ _ hnext rfl (Or.inl ⟨rfl, rfl⟩) ?_
            rintro - (hr | hr) hN
            · rw [hrole] at hr; cases hr
            · apply hs
              simp only [ackDue, Option.getD_some, Bool.and_eq_true, Bool.or_eq_true, decide_eq_true_eq]
              exact ⟨Or.inr (hsh.mpr hN), hr⟩
  · rw [if_neg hnext] at hw
    have hdue : ackDue c r.lastAck r.w.written none = true := by
      simp [ackDue, hbs]
    obtain ⟨d, hd1, hd2⟩ := hemit r.w.written
    cases hrole : c.receiver with
    | client =>
      simp only [clientRecv, hd, decode_data, toNat_ofNat_mod, hw, hdue, hd1]
      simp only [Bool.false_eq_true, if_false, if_true]
      cases sendOk with
      | true => exact hdup _ _ hnext rfl hd2
      | false => exact hfail _ _ (Or.inl rfl) (Or.inl rfl) (Or.inl rfl)
    | serverSingle | serverMulti =>
      simp only [serverRecv, hd, decode_data, toNat_ofNat_mod, hw, hdue, hd1]
      simp only [Bool.false_eq_true, if_false, Bool.true_and]
      cases sendOk with
      | true => exact hdup _ _ hnext rfl hd2
      | false => exact hmute _ hnext rfl rfl (by simp [hrole])

/-- Flags and errors. -/
structure FInv (c : Cfg) (file : Bytes) (s : Sys) : Prop where
  /-- a side which stops does so with one verdict -/
  one : c.receiver.stops = true → s.rcv.finished = true → s.rcv.failed = false
  /-- the final acknowledgement is only sent by a receiver which has finished -/
  last : (c.receiver.stops = true ∨ file.length ≤ c.max) →
    ∀ d ∈ s.acks, d.tag = some (nblocks file c.bs) → s.rcv.finished = true
  /-- a server which has everything has finished -/
  all : c.receiver ≠ .client → file.length ≤ c.max → s.rcv.w.written = nblocks file c.bs →
    s.rcv.finished = true
  /-- the sender has only seen the final acknowledgement if the receiver has finished -/
  acked : (c.receiver.stops = true ∨ file.length ≤ c.max) →
    s.acked = nblocks file c.bs → s.rcv.finished = true
  /-- errors are only sent after a failure -/
  dataErr : s.snd.failed = false → ∀ d ∈ s.data, d.tag ≠ none
  ackErr : s.rcv.failed = false → ∀ d ∈ s.acks, d.tag ≠ none

theorem FInv.init (c : Cfg) (k : Kind) (file : Bytes) (nonce : Nat) :
    FInv c file (Sys.init c k file nonce) := by
  have hN := nblocks_pos file c.bs
  constructor
  · simp [Sys.init]
  · intro _ d hd htag
    simp only [Sys.init, Option.mem_toList] at hd
    have := (emit_some hd).1
    rw [htag] at this
    simp only [Option.some.injEq] at this
    omega
  · intro _ _ hw
    simp only [Sys.init, Writer.new] at hw
    omega
  · intro _ hw
    simp only [Sys.init] at hw
    omega
  · simp [Sys.init]
  · intro _ d hd
    simp only [Sys.init, Option.mem_toList] at hd
    rw [(emit_some hd).1]; simp

theorem FInv.step {c : Cfg} {file : Bytes} {m : Mapper} {w : Window} {s : Sys} (hbs : 0 < c.bs)
    (hW : c.W ≤ 10000 ∨ nblocks file c.bs ≤ 55535)
    (h : SysInv c file m w s) (g : FInv c file s) (ev : Ev) :
    FInv c file (s.step c (nblocks file c.bs) ev) := by
  obtain ⟨hsnd, hrcv, hacked, hseen, hbase, hdata, hacks⟩ := h
  have hinv := hsnd.sim.inv
  have hwr := hrcv.seen
  cases ev with
  | tick retry fail wb net nonce =>
    obtain ⟨g1, g2, g3, ga, g4, g5⟩ := g
    simp only [Sys.step]
    refine ⟨g1, g2, g3, ga, ?_, g5⟩
    intro hf d hd
    simp only [List.mem_append, Option.mem_toList] at hd
    have key : ∀ d, (sendTick c s.snd retry fail wb net nonce).1.failed = false →
        (sendTick c s.snd retry fail wb net nonce).2 = some d → d.tag ≠ none ∧ s.snd.failed = false := by
      intro d
      unfold sendTick
      by_cases hst : (s.snd.finished || s.snd.failed) = true
      · rw [if_pos hst]; simp
      · rw [if_neg hst]
        have hnf : s.snd.failed = false := by
          cases hx : s.snd.failed with
          | false => rfl
          | true => rw [hx] at hst; simp at hst
        intro h1 h2
        refine ⟨?_, hnf⟩
        cases hr : c.sender <;> rw [hr] at h1 h2 <;> simp only [clientSendTick, serverSendTick] at h1 h2
        · split at h2
          · simp at h2
          · split at h2 <;> simp at h2
          · simp at h2
          · split at h2
            · rename_i he
              simp only [Option.some.injEq] at h2
              subst h2
              rw [(emit_some he).1]; simp
            · simp at h2
            · simp at h2
        all_goals
          split at h2
          · simp at h2
          · rename_i ho; simp [ho] at h1
          · rename_i ho; simp [ho] at h1
          · split at h2
            · rw [(emit_some h2).1]; simp
            · simp at h2
    have hmono : (sendTick c s.snd retry fail wb net nonce).1.failed = false → s.snd.failed = false := by
      intro h1
      cases hx : s.snd.failed with
      | false => rfl
      | true =>
        unfold sendTick at h1
        rw [hx] at h1
        simp [hx] at h1
    rcases hd with hd | hd
    · exact (key d hf hd).1
    · exact g4 (hmono hf) d hd
  | toReceiver i ioOk sendOk nonce =>
    simp only [Sys.step]
    split
    · exact g
    · rename_i d hget
      split
      · exact g
      · rename_i hcond
        simp only [Bool.or_eq_true, Bool.and_eq_true, Bool.not_eq_true', not_or, not_and,
          Bool.not_eq_false] at hcond
        obtain ⟨hc1, hc2⟩ := hcond
        have hlim : c.receiver.stops = true → s.rcv.finished = false ∧ s.rcv.failed = false := by
          intro hs
          have := hc1 hs
          cases h1 : s.rcv.finished <;> cases h2 : s.rcv.failed <;> simp_all
        have hmem : d ∈ s.data := List.mem_of_getElem? hget
        have hok := hdata d hmem
        unfold DataOk at hok
        obtain ⟨g1, g2, g3, ga, g4, g5⟩ := g
        cases htag : d.tag with
        | none =>
          rw [htag] at hok
          obtain ⟨e, he⟩ := hok
          rw [recv_error he]
          refine ⟨?_, g2, g3, ga, g4, ?_⟩
          · intro hs hf
            have := (hlim hs).1
            simp only at hf
            rw [this] at hf; cases hf
          · intro hf; cases hf
        | some t =>
          rw [htag] at hok hc2
          obtain ⟨ht1, ht2, he⟩ := hok
          have htop := hinv.top_le
          have hroom := hinv.room
          simp only [fresh, Bool.or_eq_true, decide_eq_true_eq] at hc2
          obtain ⟨hi, hm⟩ := s.rcv.w.mapper.index_fresh s.seen t (nblocks file c.bs) hrcv.mapper
            (by omega) (by omega) hc2 (by omega)
          apply recv_cases hbs hrcv he ht1 (by omega) hi ioOk sendOk nonce
            (P := fun x => FInv c file { s with
              rcv := x.1, acks := x.2.toList ++ s.acks, seen := newest s.seen (some t) })
          · -- failure
            intro w' e hwhy he' hw'
            refine ⟨?_, ?_, ?_, ga, g4, ?_⟩
            · intro hs hf
              have := (hlim hs).1
              simp only at hf
              rw [this] at hf; cases hf
            · intro hs d' hd' htag'
              simp only [List.mem_append, Option.mem_toList] at hd'
              rcases hd' with hd' | hd'
              · rcases he' with rfl | ⟨d2, rfl, h2⟩
                · simp at hd'
                · simp only [Option.some.injEq] at hd'
                  subst hd'
                  rw [h2] at htag'; cases htag'
              · exact g2 hs d' hd' htag'
            · intro hr hl hwr'
              simp only at hwr'
              rcases hw' with hw' | ⟨hw', hn, hc | hc⟩
              · exact g3 hr hl (by omega)
              · exact absurd hc hr
              · omega
            · intro hf; cases hf
          · -- stored
            intro w' last' e hnext hw' he' _
            refine ⟨?_, ?_, ?_, ?_, g4, ?_⟩
            · intro hs _
              exact (hlim hs).2
            · intro hs d' hd' htag'
              simp only [List.mem_append, Option.mem_toList] at hd'
              rcases hd' with hd' | hd'
              · rcases he' with ⟨rfl, -⟩ | ⟨d2, rfl, h2, -⟩
                · simp at hd'
                · simp only [Option.some.injEq] at hd'
                  subst hd'
                  rw [h2] at htag'
                  simp only [Option.some.injEq] at htag'
                  simp [htag']
              · have := hrcv.fin (g2 hs d' hd' htag')
                omega
            · intro _ _ hwr'
              simp only at hwr' ⊢
              rw [decide_eq_true_eq]; omega
            · intro hs ha
              have := hrcv.fin (ga hs ha)
              omega
            · intro hf d' hd'
              simp only [List.mem_append, Option.mem_toList] at hd'
              rcases hd' with hd' | hd'
              · rcases he' with ⟨rfl, -⟩ | ⟨d2, rfl, h2, -⟩
                · simp at hd'
                · simp only [Option.some.injEq] at hd'
                  subst hd'
                  rw [h2]; simp
              · exact g5 hf d' hd'
          · -- acknowledged again
            intro w' d2 hnext hw' htag2
            refine ⟨g1, ?_, ?_, ga, g4, ?_⟩
            · intro hs d' hd' htag'
              simp only [List.mem_append, Option.mem_toList, Option.some.injEq] at hd'
              rcases hd' with hd' | hd'
              · subst hd'
                rw [htag2] at htag'
                simp only [Option.some.injEq] at htag'
                by_cases hst : c.receiver.stops = true
                · have h1 := hlim hst
                  have h2 := hrcv.done htag'
                  rw [h1.1, h1.2] at h2
                  simp at h2
                · rcases hs with hs | hs
                  · exact absurd hs hst
                  · refine g3 ?_ hs htag'
                    intro hr
                    rw [hr] at hst
                    exact hst rfl
              · exact g2 hs d' hd' htag'
            · intro hr hl hwr'
              simp only at hwr'
              exact g3 hr hl (by omega)
            · intro hf d' hd'
              simp only [List.mem_append, Option.mem_toList, Option.some.injEq] at hd'
              rcases hd' with hd' | hd'
              · subst hd'; rw [htag2]; simp
              · exact g5 hf d' hd'
          · intro w' hnext hw' _ _
            refine ⟨g1, ?_, ?_, ga, g4, ?_⟩
            · simpa using g2
            · intro hr hl hwr'
              simp only at hwr'
              exact g3 hr hl (by omega)
            · simpa using g5
  | toSender i =>
    simp only [Sys.step]
    split
    · exact g
    · rename_i d hget
      split
      · exact g
      · rename_i hcond
        simp only [Bool.or_eq_true, Bool.and_eq_true, Bool.not_eq_true', not_or, not_and,
          Bool.not_eq_false] at hcond
        obtain ⟨hc1, hc2⟩ := hcond
        have hmem : d ∈ s.acks := List.mem_of_getElem? hget
        have hok := hacks d hmem
        unfold AckOk at hok
        obtain ⟨g1, g2, g3, ga, g4, g5⟩ := g
        cases htag : d.tag with
        | none =>
          rw [htag] at hok
          obtain ⟨e, he⟩ := hok
          rw [send_recv_error he]
          exact ⟨g1, g2, g3, ga, by simp, g5⟩
        | some t =>
          rw [htag] at hok hc2
          obtain ⟨ht2, he⟩ := hok
          have htop := hinv.top_le
          have hroom := hinv.room
          simp only [fresh, Bool.or_eq_true, decide_eq_true_eq] at hc2
          obtain ⟨hi, hm⟩ := m.index_fresh w.base t (nblocks file c.bs) hsnd.mapper
            (by omega) (by omega) (by omega) (by omega)
          obtain ⟨w', _, _, _, h4⟩ := send_recv_ack hbs hsnd he (by omega) hi hm
          refine ⟨g1, g2, g3, ?_, by simpa only [h4] using g4, g5⟩
          intro hs ha
          simp only [newest] at ha
          by_cases h5 : t = nblocks file c.bs
          · exact g2 hs d hmem (by rw [htag, h5])
          · exact ga hs (by omega)
  | abortSender =>
    simp only [Sys.step]
    split
    · exact g
    · obtain ⟨g1, g2, g3, ga, g4, g5⟩ := g
      exact ⟨g1, g2, g3, ga, by simp, g5⟩
  | abortReceiver =>
    simp only [Sys.step]
    split
    · exact g
    · rename_i hnf
      obtain ⟨g1, g2, g3, ga, g4, g5⟩ := g
      exact ⟨fun _ hf => absurd hf hnf, g2, g3, ga, g4, by simp⟩

/-- Both invariants hold in every reachable state. -/
theorem reachable {c : Cfg} {file : Bytes} {k : Kind} (hk : k = .single → c.W = 1) (hbs : 0 < c.bs)
    (hcap : c.bs ≤ c.cap) (hW : c.W ≤ 10000 ∨ nblocks file c.bs ≤ 55535) (nonce : Nat) (evs : List Ev) :
    ∃ m w, SysInv c file m w ((Sys.init c k file nonce).run c (nblocks file c.bs) evs) ∧
      FInv c file ((Sys.init c k file nonce).run c (nblocks file c.bs) evs) := by
  suffices ∀ (evs : List Ev) (s : Sys) m w, SysInv c file m w s → FInv c file s →
      ∃ m w, SysInv c file m w (s.run c (nblocks file c.bs) evs) ∧
        FInv c file (s.run c (nblocks file c.bs) evs) from
    this evs _ _ _ (SysInv.init c k file nonce hk) (FInv.init c k file nonce)
  intro evs
  induction evs with
  | nil => intro s m w h g; exact ⟨m, w, h, g⟩
  | cons ev evs ih =>
    intro s m w h g
    obtain ⟨m1, w1, h1, -⟩ := h.step hbs hcap hW ev
    exact ih _ m1 w1 h1 (g.step hbs hW h ev)

end Tftp

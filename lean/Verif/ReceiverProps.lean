import Verif.TransferProps
/-
C15 (acknowledgement policy) and C21 (size limit): the receiving side alone, against arbitrary datagrams.
-/
namespace Tftp
open Spec

/-- A datagram handed to the receiving side, and the behaviour of its file and socket. -/
structure RxIn where
  dg : Bytes
  io : WriteIo
  sendOk : Bool
  nonce : Nat

/-- The receiving loop over a list of datagrams: src/client/receiver.rs:179-259,
src/server/multi_thread.rs:284-328, src/server/single_thread.rs:239-255. A client and a connection of the
multi threaded server stop after success or failure. Result: for each handled datagram what was
answered, and the state afterwards. -/
def rxRun (c : Cfg) (s : RecvSt) : List RxIn → List (RxIn × Option Dgram × RecvSt)
  | [] => []
  | x :: xs =>
    if c.receiver.stops && (s.finished || s.failed) then []
    else
      let (s', a) := recvRecv c s x.dg x.io x.sendOk x.nonce
      (x, a, s') :: rxRun c s' xs

/-- State before any datagram. -/
def RecvSt.new : RecvSt := ⟨Writer.new, 0, 0, false, false⟩

/-! ### C15 -/

/-- Is the datagram a data packet (number, payload)? -/
def Cfg.asData (c : Cfg) (dg : Bytes) : Option (Nat × Bytes) :=
  match c.codec.dec dg with
  | some b => match Packet.fromBytes b with
    | .ok (.data blk d) => some (blk.toNat, d)
    | _ => none
  | none => none

/-- Is the answer an acknowledgement (number)? -/
def Cfg.asAck (c : Cfg) (dg : Bytes) : Option Nat :=
  match c.codec.dec dg with
  | some b => match Packet.fromBytes b with
    | .ok (.ack blk) => some blk.toNat
    | _ => none
  | none => none

/-- Specification of the acknowledgement policy as a predicate on the history of a receiver. `n` blocks
and the bytes `f` are stored, `a` is the count of the newest acknowledged block.
A stored block is acknowledged exactly if the window size is at most one, a full window has been
stored since the last acknowledgement, or it is short (the final block). A block which is not the next one
is answered by acknowledging the newest stored block. Acknowledged counts are thus never larger than
the number of stored blocks and never decrease. -/
def Spec.AckPolicy (c : Cfg) : (n a : Nat) → (f : Bytes) → List (RxIn × Option Dgram × RecvSt) → Prop
  | _, _, _, [] => True
  | n, a, f, (x, ans, s) :: rest =>
    match c.asData x.dg with
    | none => True
    | some (blk, d) =>
      (blk = (n + 1) % 65536 ∧ s.w.out = f ++ d ∧
        ((c.ackW ≤ 1 ∨ n + 1 = a + c.ackW ∨ d.length < c.bs) ∧
          (∃ y, ans = some y ∧ c.asAck y.bytes = some ((n + 1) % 65536)) ∧
          Spec.AckPolicy c (n + 1) (n + 1) s.w.out rest ∨
         ¬ (c.ackW ≤ 1 ∨ n + 1 = a + c.ackW ∨ d.length < c.bs) ∧ ans = none ∧
          Spec.AckPolicy c (n + 1) a s.w.out rest)) ∨
      (s.w.out = f ∧ (∃ y, ans = some y ∧ c.asAck y.bytes = some (n % 65536)) ∧
        Spec.AckPolicy c n n f rest)

theorem emit_ack {c : Cfg} (nonce n : Nat) :
    ∃ d, c.emit nonce (some n) (.ack (UInt16.ofNat (n % 65536))) = some d ∧
      c.asAck d.bytes = some (n % 65536) := by
  obtain ⟨d, hd⟩ := emit_isSome (c := c) (n := nonce) (tag := some n)
    (p := .ack (UInt16.ofNat (n % 65536))) (by simp [Packet.toBytes, be16])
    (by simp [Packet.toBytes, be16])
  refine ⟨d, hd, ?_⟩
  simp only [Cfg.asAck, (emit_some hd).2, decode_ack, toNat_ofNat_mod]

/-- One data packet with a working file and socket below the size limit. -/
theorem recv_raw {c : Cfg} (hbs : 0 < c.bs) {r : RecvSt} {dg : Bytes} {blk : Nat} {d : Bytes}
    (hd : c.asData dg = some (blk, d)) (nonce : Nat) (hc : 1 ≤ r.w.mapper.cur)
    (hn : r.w.mapper.cur ≤ r.w.mapper.next) (hmax : r.total + d.length ≤ c.max)
    (hnf : c.receiver.stops = true → r.finished = false) :
    let y := recvRecv c r dg .all true nonce
    1 ≤ y.1.w.mapper.cur ∧ y.1.w.mapper.cur ≤ y.1.w.mapper.next ∧ y.1.failed = r.failed ∧
    (blk = (r.w.written + 1) % 65536 ∧ y.1.w.out = r.w.out ++ d ∧ y.1.w.written = r.w.written + 1 ∧
      y.1.total = r.total + d.length ∧ y.1.finished = (r.finished || decide (d.length < c.bs)) ∧
      ((c.ackW ≤ 1 ∨ r.w.written + 1 = r.lastAck + c.ackW ∨ d.length < c.bs) ∧
        y.1.lastAck = r.w.written + 1 ∧
        (∃ z, y.2 = some z ∧ c.asAck z.bytes = some ((r.w.written + 1) % 65536)) ∨
       ¬ (c.ackW ≤ 1 ∨ r.w.written + 1 = r.lastAck + c.ackW ∨ d.length < c.bs) ∧
        y.1.lastAck = r.lastAck ∧ y.2 = none) ∨
     y.1.w.out = r.w.out ∧ y.1.w.written = r.w.written ∧ y.1.total = r.total ∧
      y.1.finished = r.finished ∧ y.1.lastAck = r.w.written ∧
      ∃ z, y.2 = some z ∧ c.asAck z.bytes = some (r.w.written % 65536)) := by
  unfold Cfg.asData at hd
  cases hdec : c.codec.dec dg with
  | none => rw [hdec] at hd; cases hd
  | some b =>
    simp only [hdec] at hd
    split at hd
    · rename_i blk' d' hp
      simp only [Option.some.injEq, Prod.mk.injEq] at hd
      obtain ⟨hd1, rfl⟩ := hd
      have hblt : blk'.toNat < 65536 := blk'.toNat_lt
      obtain ⟨e1, e2, e3⟩ := r.w.mapper.index_mod blk'.toNat hc hn hblt
      obtain ⟨z1, hz1, hz1'⟩ := emit_ack (c := c) nonce (r.w.written + 1)
      obtain ⟨z0, hz0, hz0'⟩ := emit_ack (c := c) nonce r.w.written
      -- the writer
      have hw : (∃ m, 1 ≤ m.cur ∧ m.cur ≤ m.next ∧ blk'.toNat = (r.w.written + 1) % 65536 ∧
          wrapWrite r.w blk'.toNat d' .all = (⟨r.w.out ++ d', m, r.w.written + 1⟩,
            some (some d'.length, r.w.written + 1, blk'.toNat))) ∨
        (∃ m, 1 ≤ m.cur ∧ m.cur ≤ m.next ∧
          wrapWrite r.w blk'.toNat d' .all = (⟨r.w.out, m, r.w.written⟩,
            some (none, r.w.written, r.w.written % 65536))) := by
        unfold wrapWrite Writer.writeBlock
        generalize r.w.mapper.index blk'.toNat = mi at *
        obtain ⟨m, i⟩ := mi
        simp only at *
        by_cases h1 : i < r.w.written + 1
        · right; refine ⟨m, e2, e3, ?_⟩
          simp only [if_pos h1, blockOf_eq]
        · by_cases h2 : i > r.w.written + 1
          · right; refine ⟨m, e2, e3, ?_⟩
            simp only [if_neg h1, if_pos h2, blockOf_eq]
          · left
            have : i = r.w.written + 1 := by omega
            subst this
            refine ⟨m, e2, e3, e1.symm, ?_⟩
            simp only [if_neg h1, WriteIo.taken]
      intro y
      rcases hw with ⟨m, f1, f2, f3, f4⟩ | ⟨m, f1, f2, f4⟩
      · have hle : ¬ (r.total + d'.length > c.max) := by omega
        have hdue : ackDue c r.lastAck (r.w.written + 1) (some d'.length) = true ↔
            (c.ackW ≤ 1 ∨ r.w.written + 1 = r.lastAck + c.ackW ∨ d'.length < c.bs) := by
          simp only [ackDue, Option.getD_some, Bool.or_eq_true, decide_eq_true_eq]
          omega
        rw [f3] at f4 hd1
        have hyr : y = (⟨⟨r.w.out ++ d', m, r.w.written + 1⟩,
            if ackDue c r.lastAck (r.w.written + 1) (some d'.length) then r.w.written + 1
              else r.lastAck, r.total + d'.length, r.finished || decide (d'.length < c.bs),
              r.failed⟩,
            if ackDue c r.lastAck (r.w.written + 1) (some d'.length) then some z1 else none) := by
          simp only [y, recvRecv]
          cases hrole : c.receiver with
          | client =>
            have : r.finished = false := hnf (by rw [hrole]; rfl)
            simp only [clientRecv, hdec, hp, f3, f4, hle, decide_false, Bool.false_eq_true, if_false,
              hz1, this]
            split <;> rename_i hx <;> simp
          | serverSingle | serverMulti =>
            simp only [serverRecv, hdec, hp, f3, f4, hle, decide_false, Bool.false_eq_true, if_false,
              hz1, Bool.and_true]
            split <;> rename_i hx <;> simp
        rw [hyr]
        refine ⟨f1, f2, rfl, Or.inl ⟨hd1.symm, rfl, rfl, rfl, rfl, ?_⟩⟩
        by_cases hx : ackDue c r.lastAck (r.w.written + 1) (some d'.length) = true
        · left
          simp only [hx, if_true]
          exact ⟨hdue.mp hx, trivial, z1, rfl, hz1'⟩
        · right
          simp only [hx]
          exact ⟨fun h => hx (hdue.mpr h), rfl, rfl⟩
      · have hdue : ackDue c r.lastAck r.w.written none = true := by simp [ackDue, hbs]
        have hyr : y = (⟨⟨r.w.out, m, r.w.written⟩, r.w.written, r.total, r.finished, r.failed⟩,
            some z0) := by
          simp only [y, recvRecv]
          cases hrole : c.receiver with
          | client =>
            simp only [clientRecv, hdec, hp, f4, Bool.false_eq_true, if_false, hdue, if_true, hz0]
          | serverSingle | serverMulti =>
            simp only [serverRecv, hdec, hp, f4, Bool.false_eq_true, if_false, hdue, if_true, hz0,
              Bool.and_true, Option.isSome_some]
        rw [hyr]
        exact ⟨f1, f2, rfl, Or.inr ⟨rfl, rfl, rfl, rfl, rfl, z0, rfl, hz0'⟩⟩
    · cases hd

/-- **C15**: whatever sequence of data packets arrives — any numbers, any payloads, in any order —
the receiver acknowledges by the policy `AckPolicy` (as long as file and socket work and the size
limit is not reached). -/
theorem c15_ack_policy (c : Cfg) (hbs : 0 < c.bs) (xs : List RxIn)
    (hok : ∀ x ∈ xs, x.io = .all ∧ x.sendOk = true ∧ ∃ b d, c.asData x.dg = some (b, d))
    (hmax : (xs.map fun x => ((c.asData x.dg).map fun p => p.2.length).getD 0).sum ≤ c.max) :
    AckPolicy c 0 0 [] (rxRun c RecvSt.new xs) := by
  have key : ∀ (xs : List RxIn) (r : RecvSt), 1 ≤ r.w.mapper.cur → r.w.mapper.cur ≤ r.w.mapper.next →
      (∀ x ∈ xs, x.io = .all ∧ x.sendOk = true ∧ ∃ b d, c.asData x.dg = some (b, d)) →
      r.total + (xs.map fun x => ((c.asData x.dg).map fun p => p.2.length).getD 0).sum ≤ c.max →
      AckPolicy c r.w.written r.lastAck r.w.out (rxRun c r xs) := by
    intro xs
    induction xs with
    | nil => intros; trivial
    | cons x xs ih =>
      intro r hc hn hok hmax
      obtain ⟨h1, h2, blk, d, h3⟩ := hok x (by simp)
      simp only [rxRun]
      split
      · trivial
      · rename_i hst
        simp only [List.map_cons, List.sum_cons, h3, Option.map_some, Option.getD_some] at hmax
        have hnf : c.receiver.stops = true → r.finished = false := by
          intro hs
          cases hx : r.finished with
          | false => rfl
          | true => rw [hs, hx] at hst; simp at hst
        obtain ⟨k1, k2, k3, k4⟩ := recv_raw hbs (r := r) h3 x.nonce hc hn (by omega) hnf
        rw [h1, h2]
        generalize recvRecv c r x.dg .all true x.nonce = y at *
        have hok' : ∀ x ∈ xs, x.io = .all ∧ x.sendOk = true ∧ ∃ b d, c.asData x.dg = some (b, d) :=
          fun x hx => hok x (by simp [hx])
        simp only [AckPolicy, h3]
        rcases k4 with ⟨a1, a2, a3, a4, a5, a6⟩ | ⟨a2, a3, a4, a5, a6, a7⟩
        · have hi := ih y.1 k1 k2 hok' (by omega)
          rw [a3] at hi
          left
          refine ⟨a1, a2, ?_⟩
          rcases a6 with ⟨b1, b2, b3⟩ | ⟨b1, b2, b3⟩
          · left; rw [b2] at hi; exact ⟨b1, b3, hi⟩
          · right; rw [b2] at hi; exact ⟨b1, b3, hi⟩
        · have hi := ih y.1 k1 k2 hok' (by omega)
          rw [a3, a6, a2] at hi
          right
          exact ⟨a2, a7, hi⟩
  exact key xs RecvSt.new (by decide) (by decide) hok (by simpa [RecvSt.new] using hmax)

/-- Non-trivial instance: window 2, blocks 1, 3 (early), 2, 2 (again), 3 (short). -/
example : (rxRun (⟨2, 2, 2, 8, 100, .serverMulti, .client, Codec.plain 6⟩ : Cfg) RecvSt.new
    ([(1, [1, 2]), (3, [5]), (2, [3, 4]), (2, [3, 4]), (3, [5])].map fun p =>
      (⟨(Packet.data p.1 p.2).toBytes, .all, true, 0⟩ : RxIn))).map
      (fun e => (e.2.1.bind fun d => (⟨2, 2, 2, 8, 100, .serverMulti, .client, Codec.plain 6⟩ : Cfg).asAck d.bytes, e.2.2.w.out)) =
    [(none, [1, 2]), (some 1, [1, 2]), (none, [1, 2, 3, 4]), (some 2, [1, 2, 3, 4]), (some 3, [1, 2, 3, 4, 5])] := by
  decide

/-- Acknowledgements sent so far, newest first, never decrease. -/
def AcksSorted (acks : List Dgram) : Prop :=
  acks.Pairwise fun newer older => ∀ a b, newer.tag = some a → older.tag = some b → b ≤ a

theorem acks_sorted_step {c : Cfg} {file : Bytes} {m : Mapper} {w : Window} {s : Sys} (hbs : 0 < c.bs)
    (hW : c.W ≤ 10000 ∨ nblocks file c.bs ≤ 55535) (h : SysInv c file m w s)
    (hs : AcksSorted s.acks) (ev : Ev) : AcksSorted (s.step c (nblocks file c.bs) ev).acks := by
  obtain ⟨hsnd, hrcv, hacked, hseen, hbase, hdata, hacks⟩ := h
  have hinv := hsnd.sim.inv
  have hwr := hrcv.seen
  have hold : ∀ d ∈ s.acks, ∀ b, d.tag = some b → b ≤ s.rcv.w.written := by
    intro d hd b hb
    have := hacks d hd
    unfold AckOk at this
    rw [hb] at this
    exact this.1
  cases ev with
  | toReceiver i ioOk sendOk nonce =>
    simp only [Sys.step]
    split
    · exact hs
    · rename_i d hget
      split
      · exact hs
      · rename_i hcond
        simp only [Bool.or_eq_true, Bool.and_eq_true, Bool.not_eq_true', not_or, not_and,
          Bool.not_eq_false] at hcond
        obtain ⟨-, hc2⟩ := hcond
        have hok := hdata d (List.mem_of_getElem? hget)
        unfold DataOk at hok
        cases htag : d.tag with
        | none =>
          rw [htag] at hok
          obtain ⟨e, he⟩ := hok
          rw [recv_error he]
          exact hs
        | some t =>
          rw [htag] at hok hc2
          obtain ⟨ht1, ht2, he⟩ := hok
          have htop := hinv.top_le
          have hroom := hinv.room
          simp only [fresh, Bool.or_eq_true, decide_eq_true_eq] at hc2
          obtain ⟨hi, hm⟩ := s.rcv.w.mapper.index_fresh s.seen t (nblocks file c.bs) hrcv.mapper
            (by omega) (by omega) hc2 (by omega)
          apply recv_cases hbs hrcv he ht1 (by omega) hi ioOk sendOk nonce
            (P := fun y => AcksSorted (y.2.toList ++ s.acks))
          · intro w' e _ he' _
            rcases he' with rfl | ⟨d', rfl, hd'⟩
            · exact hs
            · refine List.Pairwise.cons ?_ hs
              intro x _ a b ha
              rw [hd'] at ha; cases ha
          · intro w' last' e hnext _ he' _
            rcases he' with ⟨rfl, -⟩ | ⟨d', rfl, hd', -⟩
            · exact hs
            · refine List.Pairwise.cons ?_ hs
              intro x hx a b ha hb
              rw [hd'] at ha
              simp only [Option.some.injEq] at ha
              have := hold x hx b hb
              omega
          · intro w' d' _ _ hd'
            refine List.Pairwise.cons ?_ hs
            intro x hx a b ha hb
            rw [hd'] at ha
            simp only [Option.some.injEq] at ha
            have := hold x hx b hb
            omega
          · intros; exact hs
  | tick => exact hs
  | toSender i =>
    simp only [Sys.step]
    split
    · exact hs
    · split <;> exact hs
  | abortSender => simp only [Sys.step]; split <;> exact hs
  | abortReceiver => simp only [Sys.step]; split <;> exact hs

/-- **C15**, whole transfer with failing files and sockets: every datagram a receiver has ever sent is an
error or acknowledges a stored block (`tag` is its true count, the wire carries it modulo 65536), and the
acknowledged counts never decrease. -/
theorem c15_acks_stored_and_monotone {c : Cfg} {k : Kind} {file : Bytes} (h : Setup c k file)
    (nonce : Nat) (evs : List Ev) :
    let s := transfer c k file nonce evs
    AcksSorted s.acks ∧ ∀ d ∈ s.acks,
      (∃ e msg, (c.codec.dec d.bytes).map Packet.fromBytes = some (.ok (.error e msg))) ∨
      (∃ t, d.tag = some t ∧ t ≤ s.rcv.w.written ∧ c.asAck d.bytes = some (t % 65536)) := by
  have key : ∀ (evs : List Ev) (s : Sys) m w, SysInv c file m w s → AcksSorted s.acks →
      AcksSorted (s.run c (nblocks file c.bs) evs).acks := by
    intro evs
    induction evs with
    | nil => intro s m w _ hs; exact hs
    | cons ev evs ih =>
      intro s m w hi hs
      obtain ⟨m1, w1, h1, -⟩ := hi.step h.bs h.cap h.window ev
      exact ih _ m1 w1 h1 (acks_sorted_step h.bs h.window hi hs ev)
  obtain ⟨m, w, h1, -⟩ := transfer_inv h nonce evs
  refine ⟨key evs _ _ _ (SysInv.init c k file nonce h.kind) ?_, ?_⟩
  · simp only [Sys.init]
    cases c.emit nonce (some 0) (.ack 0) <;> simp [AcksSorted]
  · intro d hd
    have := h1.acks d hd
    unfold AckOk at this
    cases htag : d.tag with
    | none =>
      rw [htag] at this
      obtain ⟨e, he⟩ := this
      left
      exact ⟨e, [], by rw [he]; simp [decode_error]⟩
    | some t =>
      rw [htag] at this
      obtain ⟨h3, h4⟩ := this
      right
      exact ⟨t, rfl, h3, by simp only [Cfg.asAck, h4, decode_ack, toNat_ofNat_mod]⟩

/-! ### C21 -/

/-- What a single datagram can do to the size of the file and to the flags. -/
theorem recv_size (c : Cfg) (r : RecvSt) (x : RxIn) (B : Nat)
    (hB : ∀ b d, c.asData x.dg = some (b, d) → d.length ≤ B)
    (h1 : r.failed = false → r.w.out.length = r.total) (h2 : r.total ≤ c.max) :
    let y := (recvRecv c r x.dg x.io x.sendOk x.nonce).1
    (y.failed = false → r.failed = false ∧ y.w.out.length = y.total) ∧ y.total ≤ c.max ∧
    r.total ≤ y.total ∧ (y.finished = true → r.finished = true ∨ y.failed = r.failed) ∧
    y.w.out.length ≤ r.w.out.length + B := by
  have hw : ∀ (blk : Nat) (d : Bytes), d.length ≤ B →
      (∃ w', wrapWrite r.w blk d x.io = (w', none) ∧ w'.out = r.w.out) ∨
      (∃ w' i k, wrapWrite r.w blk d x.io = (w', some (none, i, k)) ∧ w'.out = r.w.out) ∨
      (∃ w' n i k, wrapWrite r.w blk d x.io = (w', some (some n, i, k)) ∧
        w'.out.length = r.w.out.length + n ∧ n ≤ B) := by
    intro blk d hd
    unfold wrapWrite Writer.writeBlock
    generalize r.w.mapper.index blk = mi
    obtain ⟨m, i⟩ := mi
    simp only
    by_cases e1 : i < r.w.written + 1
    · rw [if_pos e1]; right; left; exact ⟨_, _, _, rfl, rfl⟩
    · rw [if_neg e1]
      by_cases e2 : i > r.w.written + 1
      · rw [if_pos e2]; right; left; exact ⟨_, _, _, rfl, rfl⟩
      · rw [if_neg e2]
        cases x.io with
        | err => left; exact ⟨_, rfl, rfl⟩
        | all =>
          right; right
          exact ⟨_, d.length, _, _, rfl, by simp [WriteIo.taken], hd⟩
        | upTo k =>
          right; right
          exact ⟨_, (d.take k).length, _, _, rfl, by simp [WriteIo.taken], by simp; omega⟩
  intro y
  simp only [y, recvRecv]
  unfold Cfg.asData at hB
  cases hdec : c.codec.dec x.dg with
  | none =>
    cases c.receiver <;> simp only [clientRecv, serverRecv, hdec] <;>
      refine ⟨?_, h2, Nat.le_refl _, ?_, by omega⟩ <;> simp_all
  | some b =>
    simp only [hdec] at hB
    cases hp : Packet.fromBytes b with
    | error e =>
      cases c.receiver <;> simp only [clientRecv, serverRecv, hdec, hp] <;>
        refine ⟨?_, h2, Nat.le_refl _, ?_, by omega⟩ <;> simp_all
    | ok p =>
      cases p with
      | data blk d =>
        have hd : d.length ≤ B := hB blk.toNat d (by rw [hp])
        rcases hw blk.toNat d hd with ⟨w', e1, e2⟩ | ⟨w', i, k, e1, e2⟩ | ⟨w', n, i, k, e1, e2, e3⟩
        · cases c.receiver <;> simp only [clientRecv, serverRecv, hdec, hp, e1] <;>
            refine ⟨?_, h2, Nat.le_refl _, ?_, by simp only [e2]; omega⟩ <;> simp_all
        · cases c.receiver <;>
            simp only [clientRecv, serverRecv, hdec, hp, e1, Bool.false_eq_true, if_false]
          · split
            · split <;> refine ⟨?_, h2, Nat.le_refl _, ?_, by simp only [e2]; omega⟩ <;> simp_all
            · refine ⟨?_, h2, Nat.le_refl _, ?_, by simp only [e2]; omega⟩ <;> simp_all
          all_goals
            generalize (if (ackDue c r.lastAck i none && x.sendOk) = true then
              c.emit x.nonce (some i) (.ack (UInt16.ofNat k)) else none) = a
            cases a <;> simp only [Option.isSome_none, Option.isSome_some, Bool.false_eq_true,
              if_false, if_true] <;>
              refine ⟨?_, h2, Nat.le_refl _, ?_, by simp only [e2]; omega⟩ <;> simp_all
        · cases c.receiver <;> simp only [clientRecv, serverRecv, hdec, hp, e1]
          · split
            · refine ⟨?_, h2, Nat.le_refl _, ?_, by simp only; omega⟩ <;> simp_all
            · rename_i hle
              simp only [decide_eq_true_eq] at hle
              split
              · split
                · refine ⟨?_, by simp only; omega, by simp only; omega, ?_, by simp only; omega⟩ <;>
                    simp_all
                · refine ⟨?_, h2, Nat.le_refl _, ?_, by simp only; omega⟩ <;> simp_all
              · refine ⟨?_, by simp only; omega, by simp only; omega, ?_, by simp only; omega⟩ <;>
                    simp_all
          all_goals
            split
            · refine ⟨?_, h2, Nat.le_refl _, ?_, by simp only; omega⟩ <;> simp_all
            · rename_i hle
              simp only [decide_eq_true_eq] at hle
              generalize (if (ackDue c r.lastAck i (some n) && x.sendOk) = true then
                c.emit x.nonce (some i) (.ack (UInt16.ofNat k)) else none) = a
              cases a <;> simp only [Option.isSome_none, Option.isSome_some, Bool.false_eq_true,
                if_false, if_true] <;>
                refine ⟨?_, by omega, by omega, ?_, by omega⟩ <;> simp_all
      | ack | error | read | write | optionalAck =>
        cases c.receiver <;> simp only [clientRecv, serverRecv, hdec, hp] <;>
          refine ⟨?_, h2, Nat.le_refl _, ?_, by omega⟩ <;> simp_all

/-- **C21**: a client, and a connection of the multi threaded server, never store more than the limit
plus one payload, never report success once the limit was exceeded, and answer nothing but the error
from then on — for all datagrams, genuine or not, and all behaviours of file and socket. `B` bounds the
payloads. -/
theorem c21_size_limit (c : Cfg) (hr : c.receiver ≠ .serverSingle) (B : Nat) (xs : List RxIn)
    (hB : ∀ x ∈ xs, ∀ b d, c.asData x.dg = some (b, d) → d.length ≤ B) :
    ∀ e ∈ rxRun c RecvSt.new xs,
      e.2.2.w.out.length ≤ c.max + B ∧
      (e.2.2.failed = false → e.2.2.w.out.length ≤ c.max) ∧
      (e.2.2.finished = true → e.2.2.failed = false ∧ e.2.2.w.out.length ≤ c.max) := by
  have hst : c.receiver.stops = true := by cases h : c.receiver <;> simp_all [Role.stops]
  have key : ∀ (xs : List RxIn) (r : RecvSt), (r.failed = false → r.w.out.length = r.total) →
      r.total ≤ c.max → r.w.out.length ≤ c.max + B →
      (∀ x ∈ xs, ∀ b d, c.asData x.dg = some (b, d) → d.length ≤ B) →
      ∀ e ∈ rxRun c r xs,
        e.2.2.w.out.length ≤ c.max + B ∧
        (e.2.2.failed = false → e.2.2.w.out.length ≤ c.max) ∧
        (e.2.2.finished = true → e.2.2.failed = false ∧ e.2.2.w.out.length ≤ c.max) := by
    intro xs
    induction xs with
    | nil => intro r _ _ _ _ e he; cases he
    | cons x xs ih =>
      intro r h1 h2 h3 hB e he
      simp only [rxRun, hst, Bool.true_and] at he
      split at he
      · cases he
      · rename_i hnot
        have hnf : r.failed = false ∧ r.finished = false := by
          cases hx : r.failed <;> cases hy : r.finished <;> simp_all
        obtain ⟨k1, k2, k3, k4, k5⟩ := recv_size c r x B (hB x (by simp)) h1 h2
        generalize recvRecv c r x.dg x.io x.sendOk x.nonce = y at *
        have h3' : y.1.w.out.length ≤ c.max + B := by have := h1 hnf.1; omega
        have hmax : y.1.failed = false → y.1.w.out.length ≤ c.max := by
          intro hf; have := (k1 hf).2; omega
        rcases List.mem_cons.mp he with rfl | he
        · refine ⟨h3', hmax, fun hf => ?_⟩
          rcases k4 hf with hx | hx
          · rw [hnf.2] at hx; cases hx
          · rw [hnf.1] at hx; exact ⟨hx, hmax hx⟩
        · exact ih y.1 (fun hf => (k1 hf).2) k2 h3' (fun x hx => hB x (by simp [hx])) e he
  exact key xs RecvSt.new (fun _ => rfl) (Nat.zero_le _) (by simp [RecvSt.new, Writer.new]) hB

/-- **C21** for every kind of receiver: while no failure was reported the file is within the limit, and
the byte count of the connection never exceeds the limit. What is missing for the single threaded
server: the bounds after the failure, see `c21_single_thread_unbounded`. -/
theorem c21_size_limit_until_failure_partial (c : Cfg) (xs : List RxIn) :
    ∀ e ∈ rxRun c RecvSt.new xs,
      e.2.2.total ≤ c.max ∧ (e.2.2.failed = false → e.2.2.w.out.length ≤ c.max) := by
  have key : ∀ (xs : List RxIn) (r : RecvSt), (r.failed = false → r.w.out.length = r.total) →
      r.total ≤ c.max → ∀ e ∈ rxRun c r xs,
        e.2.2.total ≤ c.max ∧ (e.2.2.failed = false → e.2.2.w.out.length ≤ c.max) := by
    intro xs
    induction xs with
    | nil => intro r _ _ e he; cases he
    | cons x xs ih =>
      intro r h1 h2 e he
      simp only [rxRun] at he
      split at he
      · cases he
      · obtain ⟨B, hB⟩ : ∃ B, ∀ b d, c.asData x.dg = some (b, d) → d.length ≤ B := by
          cases hx : c.asData x.dg with
          | none => exact ⟨0, by intro b d h; cases h⟩
          | some p => exact ⟨p.2.length, by intro b d h; cases h; exact Nat.le_refl _⟩
        obtain ⟨k1, k2, k3, k4, k5⟩ := recv_size c r x B hB h1 h2
        generalize recvRecv c r x.dg x.io x.sendOk x.nonce = y at *
        rcases List.mem_cons.mp he with rfl | he
        · exact ⟨k2, fun hf => by have := (k1 hf).2; simp only; omega⟩
        · exact ih y.1 (fun hf => (k1 hf).2) k2 e he
  exact key xs RecvSt.new (fun _ => rfl) (Nat.zero_le _)

/-- Finding (the part of C21 which is false): the single threaded server keeps storing blocks after
it has refused the transfer, until the connection is purged: with a limit of 0 bytes and blocks of one
byte, any number `n` of bytes can be stored. -/
theorem c21_single_thread_unbounded (n : Nat) :
    ∃ (c : Cfg) (xs : List RxIn), c.max = 0 ∧ c.bs = 1 ∧ c.receiver = .serverSingle ∧
      ∃ e ∈ rxRun c RecvSt.new xs, e.2.2.w.out.length = n + 1 := by
  let c : Cfg := ⟨1, 1, 1, 1, 0, .client, .serverSingle, Codec.plain 5⟩
  let x (i : Nat) : RxIn := ⟨(Packet.data (UInt16.ofNat (i % 65536)) [7]).toBytes, .all, true, 0⟩
  have step : ∀ (i : Nat) (r : RecvSt), r.w.mapper.Inv i → r.w.written = i → r.w.out.length = i →
      ∃ y, recvRecv c r (x (i + 1)).dg .all true 0 = y ∧ y.1.w.mapper.Inv (i + 1) ∧
        y.1.w.written = i + 1 ∧ y.1.w.out.length = i + 1 := by
    intro i r h1 h2 h3
    obtain ⟨e1, e2⟩ := r.w.mapper.index_step i (i + 1) h1 (by omega) (by omega)
    rw [Nat.max_eq_right (by omega)] at e2
    have hw : wrapWrite r.w ((i + 1) % 65536) [7] .all =
        (⟨r.w.out ++ [7], (r.w.mapper.index ((i + 1) % 65536)).1, i + 1⟩,
          some (some 1, i + 1, (i + 1) % 65536)) := by
      unfold wrapWrite Writer.writeBlock
      generalize r.w.mapper.index ((i + 1) % 65536) = mi at *
      obtain ⟨m, j⟩ := mi
      simp only at e1 ⊢
      subst e1
      rw [if_neg (by omega), if_neg (by omega)]
      simp [WriteIo.taken, h2]
    refine ⟨_, rfl, ?_⟩
    have hgt : r.total + 1 > 0 := by omega
    simp only [recvRecv, c, x, serverRecv, Codec.plain, decode_data, toNat_ofNat_mod, hw, hgt,
      decide_true, if_true]
    exact ⟨e2, trivial, by simp [h3]⟩
  have key : ∀ (n i : Nat) (r : RecvSt), r.w.mapper.Inv i → r.w.written = i → r.w.out.length = i →
      ∃ e ∈ rxRun c r ((List.range' (i + 1) (n + 1)).map x), e.2.2.w.out.length = i + n + 1 := by
    intro n
    induction n with
    | zero =>
      intro i r h1 h2 h3
      obtain ⟨y, g1, g2, g3, g4⟩ := step i r h1 h2 h3
      refine ⟨(x (i + 1), y.2, y.1), ?_, g4⟩
      have : c.receiver.stops = false := rfl
      simp only [List.range'_succ, List.range'_zero, List.map_cons, List.map_nil, rxRun, this,
        Bool.false_and, Bool.false_eq_true, if_false]
      rw [show recvRecv c r (x (i + 1)).dg (x (i + 1)).io (x (i + 1)).sendOk (x (i + 1)).nonce = y
        from g1]
      simp
    | succ n ih =>
      intro i r h1 h2 h3
      obtain ⟨y, g1, g2, g3, g4⟩ := step i r h1 h2 h3
      obtain ⟨e, he, hl⟩ := ih (i + 1) y.1 g2 g3 g4
      refine ⟨e, ?_, by omega⟩
      have : c.receiver.stops = false := rfl
      rw [List.range'_succ, List.map_cons, rxRun]
      simp only [this, Bool.false_and, Bool.false_eq_true, if_false]
      rw [show recvRecv c r (x (i + 1)).dg (x (i + 1)).io (x (i + 1)).sendOk (x (i + 1)).nonce = y
        from g1]
      exact List.mem_cons_of_mem _ he
  obtain ⟨e, h1, h2⟩ := key n 0 RecvSt.new Mapper.inv_new rfl rfl
  exact ⟨c, _, rfl, rfl, rfl, e, h1, by omega⟩

/-- Finding: and such a transfer can end with a success at the client: a file of 5 bytes against a limit
of 3 bytes on the single threaded server. The error datagram of the server is lost; the server has
refused the transfer and finished it at the same time. -/
theorem c21_single_thread_bypass :
    ∃ (c : Cfg) (file : Bytes) (evs : List Ev), Setup c .single file ∧ c.receiver = .serverSingle ∧
      c.max < file.length ∧
      (transfer c .single file 0 evs).snd.finished = true ∧
      (transfer c .single file 0 evs).snd.failed = false ∧
      (transfer c .single file 0 evs).rcv.finished = true ∧
      (transfer c .single file 0 evs).rcv.failed = true ∧
      (transfer c .single file 0 evs).rcv.w.out = file := by
  refine ⟨⟨2, 1, 1, 8, 3, .client, .serverSingle, Codec.plain 6⟩, [1, 2, 3, 4, 5],
    [.tick false false false .sent 0, .toReceiver 0 true true 0, .toSender 0,
     -- block 2 exceeds the limit: an error is sent (and lost)
     .tick false false false .sent 0, .toReceiver 0 true true 0,
     -- block 2 is sent again and acknowledged, since it is stored
     .tick true false false .sent 0, .toReceiver 0 true true 0, .toSender 0,
     .tick false false false .sent 0, .toReceiver 0 true true 0, .toSender 0], ?_, rfl, by decide,
     by decide, by decide, by decide, by decide, by decide⟩
  constructor <;> simp

/-- Non-trivial instances: the limit is reached by a client (then nothing is handled any more). -/
example : (rxRun (⟨2, 1, 1, 8, 3, .serverMulti, .client, Codec.plain 6⟩ : Cfg) RecvSt.new
    ([(1, [1, 2]), (2, [3, 4]), (3, [5])].map fun p =>
      (⟨(Packet.data p.1 p.2).toBytes, .all, true, 0⟩ : RxIn))).map
      (fun e => (e.2.2.w.out, e.2.2.failed)) = [([1, 2], false), ([1, 2, 3, 4], true)] := by decide

end Tftp

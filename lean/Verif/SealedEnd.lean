import Verif.SealedCli
import Verif.EndDown
/-
C56: a whole download of an encrypted file, with the real client and the real server (EndWorld.lean); the client's writer decrypts.
-/
namespace Tftp
open Spec

variable {S : SigScheme}

/-- One step of a world whose client decrypts (std-binary/src/receiver.rs:68-80). -/
def Parties.sealedStep (A : StreamAead) (v : Parties S) (x : World × StreamOut) : WEv → World × StreamOut
  | .server ep e => (v.step x.1 (.server ep e), x.2)
  | .client i =>
    let r := x.2.handle A (v.cli.offers v.job x.1.cli i) i.file
    (v.step x.1 (.client { i with file := r.2 }), r.1)

/-- Specification: every file which the server has opened for the client is one of the uploads `us`, encrypted with the client's key, in blocks of the size which
was agreed for this connection. -/
def Spec.Sealed (A : StreamAead) (v : Parties S) (us : List Upload) (w : World) : Prop :=
  ∀ e c file, w.conns e = some c → Served v w e file → ∃ u ∈ us, u.Fits ∧ u.len = c.opts.payload ∧ file = sealed A u.nonce u.file u.len

/-- What can be reached, with the assumptions of C53. -/
inductive Spec.SealedReach (A : StreamAead) (v : Parties S) (us : List Upload) (late : Option Nat) : World × StreamOut → Prop
  | init (t : Nat) : SealedReach A v us late (v.init t, StreamOut.new)
  | step (x : World × StreamOut) (e : WEv) : SealedReach A v us late x → Allowed v late x.1 e → Sealed A v us (v.sealedStep A x e).1 →
      SealedReach A v us late (v.sealedStep A x e)

/-! ### The writer -/

theorem write_err {A : StreamAead} (s : StreamOut) (d : Bytes) : ∃ s' e, s.write A d .err = (s', .error e) ∧ s'.out = s.out := by
  cases h : s.write A d .err with
  | mk s' r =>
    cases r with
    | error e => exact ⟨s', e, rfl, write_error_out h⟩
    | ok n =>
      exfalso
      unfold StreamOut.write at h
      split at h
      · cases h
      · split at h
        · simp only at h
          split at h
          · cases h
          · split at h
            · cases h
            · simp only [WriteIo.taken] at h
              cases h
        · cases h

theorem write_first_block {A : StreamAead} {u : Upload} (h : u.Fits) :
    ∃ o, StreamOut.new.write A (sealedBlock A u 0) .all = (o, .ok (sealedBlock A u 0).length) ∧ WroteAt u 1 o := by
  have hlen := sealedBlock_length (A := A) h 0
  have hl := h.len
  have hhead := head_length h
  have hrange : ¬ (u.len < minStream ∨ u.len > 1425) := by unfold minStream; omega
  have hu : (UInt16.ofNat u.len).toNat = u.len := by simp; omega
  have hb : sealedBlock A u 0 = be16 (UInt16.ofNat u.len) ++ u.nonce ++ A.enc u.nonce 0 (decide (0 + 1 = pieces u.file u.len)) (piece u.file u.len 0) := by
    unfold sealedBlock sealedPiece
    rw [if_pos rfl]
  have hru : readU16 (sealedBlock A u 0) = some (UInt16.ofNat u.len) := by rw [hb, List.append_assoc]; exact readU16_be16 _ _
  have hnon : ((sealedBlock A u 0).drop 2).take 19 = u.nonce := by rw [hb]; simp [be16, h.nonce]
  have hdrop : (sealedBlock A u 0).drop 21 = A.enc u.nonce 0 (decide (0 + 1 = pieces u.file u.len)) (piece u.file u.len 0) := by
    rw [hb, ← hhead, List.drop_left]
  have hout : piece u.file u.len 0 = u.file.take (cut u.len 1) := by
    rw [← take_piece]
    simp [cut]
  have h0 : ¬ 0 = streamMax := by decide
  have hpos : 0 < pieces u.file u.len := Nat.succ_pos _
  rw [if_pos rfl] at hlen
  by_cases hlast : 0 + 1 = pieces u.file u.len
  · have hs := piece_short hl.1 hlast
    rw [if_pos rfl] at hs
    refine ⟨⟨some (u.nonce, none), false, some u.len, piece u.file u.len 0⟩, ?_, ⟨by omega, by omega, rfl, hout, ?_, _, rfl, fun hx => by omega⟩⟩
    · simp only [StreamOut.new, StreamOut.write, StreamOut.parse, if_true, hru, hu, if_neg hrange, hnon]
      rw [if_neg (by omega)]
      simp only [hdrop, A.enc_length]
      rw [if_neg (by omega)]
      simp only [streamDecrypt, A.enc_length]
      rw [if_neg (by omega)]
      simp only [hlast, decide_true, A.dec_enc, WriteIo.taken, List.nil_append]
      rw [hlen]
    · rw [if_neg (by omega)]
  · have hs := piece_full (file := u.file) (k := 0) hl.1 (by omega)
    rw [if_pos rfl] at hs
    refine ⟨⟨some (u.nonce, some 1), false, some u.len, piece u.file u.len 0⟩, ?_, ⟨by omega, by omega, rfl, hout, ?_, _, rfl, fun hx => rfl⟩⟩
    · simp only [StreamOut.new, StreamOut.write, StreamOut.parse, if_true, hru, hu, if_neg hrange, hnon]
      rw [if_neg (by omega)]
      simp only [hdrop, A.enc_length]
      rw [if_neg (by omega)]
      simp only [streamDecrypt, A.enc_length, if_neg h0]
      rw [if_pos (by omega)]
      simp only [hlast, decide_false, A.dec_enc, WriteIo.taken, List.nil_append]
      rw [hlen]
    · rw [if_pos (by omega)]

theorem write_block {A : StreamAead} {u : Upload} (h : u.Fits) {k : Nat} {s : StreamOut} (hs : WroteAt u k s) (hk : k < pieces u.file u.len) :
    ∃ o, s.write A (sealedBlock A u k) .all = (o, .ok (sealedBlock A u k).length) ∧ WroteAt u (k + 1) o := by
  have hlen := sealedBlock_length (A := A) h k
  obtain ⟨k0, kle, hh, ho, hdc, z, hz, hzl⟩ := hs
  obtain rfl := hzl hk
  have hl := h.len
  have hmax : ¬ k = streamMax := by have := h.size; omega
  have hb : sealedBlock A u k = A.enc u.nonce k (decide (k + 1 = pieces u.file u.len)) (piece u.file u.len k) := by
    unfold sealedBlock sealedPiece
    rw [if_neg (by omega), List.nil_append]
  rw [if_neg (by omega)] at hlen
  by_cases hlast : k + 1 = pieces u.file u.len
  · have hs := piece_short hl.1 hlast
    rw [if_neg (by omega)] at hs
    refine ⟨⟨some (u.nonce, none), false, some u.len, s.out ++ piece u.file u.len k⟩, ?_, ⟨by omega, by omega, rfl, ?_, ?_, _, rfl, fun hx => by omega⟩⟩
    · simp only [StreamOut.write, StreamOut.parse, hh, Bool.false_eq_true, if_false, hz, hdc, List.drop_zero, Nat.sub_zero, if_pos hk]
      rw [if_neg (by omega)]
      simp only [streamDecrypt]
      rw [if_neg (by omega), hb, hlast]
      simp only [decide_true, A.dec_enc, WriteIo.taken, A.enc_length, Nat.add_zero]
    · simp only [ho, take_piece]
    · rw [if_neg (by omega)]
  · have hs := piece_full (file := u.file) (k := k) hl.1 (by omega)
    rw [if_neg (by omega)] at hs
    refine ⟨⟨some (u.nonce, some (k + 1)), false, some u.len, s.out ++ piece u.file u.len k⟩, ?_, ⟨by omega, by omega, rfl, ?_, ?_, _, rfl, fun hx => rfl⟩⟩
    · simp only [StreamOut.write, StreamOut.parse, hh, Bool.false_eq_true, if_false, hz, hdc, List.drop_zero, Nat.sub_zero, if_pos hk]
      rw [if_neg (by omega)]
      simp only [streamDecrypt, if_neg hmax]
      rw [if_pos (by omega), hb]
      simp only [hlast, decide_false, A.dec_enc, WriteIo.taken, A.enc_length, Nat.add_zero]
    · simp only [ho, take_piece]
    · rw [if_pos (by omega)]

/-! ### The client -/

theorem clientRecv_data {c : Cfg} {s : RecvSt} {dg b : Bytes} {blk : UInt16} {data : Bytes} {io : WriteIo} {sendOk : Bool} {nonce : Nat}
    (hb : c.codec.dec dg = some b) (hp : Packet.fromBytes b = .ok (.data blk data)) :
    (clientRecv c s dg io sendOk nonce).1.w = (s.w.writeBlock blk.toNat data io).1 ∧
    ((s.w.writeBlock blk.toNat data io).2 = .ioErr → (clientRecv c s dg io sendOk nonce).1.failed = true) := by
  constructor
  · simp only [clientRecv, hb, hp]
    cases hw : (s.w.writeBlock blk.toNat data io).2 <;> simp only [wrapWrite, hw] <;> first | rfl | skip
    all_goals
      split
      · rfl
      · split
        · split <;> rfl
        · rfl
  · intro hw
    simp only [clientRecv, hb, hp, wrapWrite, hw]

theorem offers_written (w : Writer) (b : Nat) (d : Bytes) {io : WriteIo} (hio : io = .all ∨ io = .err) :
    (w.offers b d = none ∧ (w.writeBlock b d io).1.written = w.written ∧ (w.writeBlock b d io).1.out = w.out) ∨
    (w.offers b d = some d ∧ (io = .all → (w.writeBlock b d io).1.written = w.written + 1 ∧ (w.writeBlock b d io).1.out = w.out ++ d) ∧
      (io = .err → (w.writeBlock b d io).2 = .ioErr)) := by
  unfold Writer.offers
  simp only [Writer.writeBlock]
  split
  · exact .inl ⟨by simp, rfl, rfl⟩
  · split
    · exact .inl ⟨by simp, rfl, rfl⟩
    · refine .inr ⟨by simp [WriteIo.taken], ?_, ?_⟩
      · rintro rfl; exact ⟨rfl, rfl⟩
      · rintro rfl; rfl

/-- An iteration of the receiving loop. -/
theorem down_outcome (v : Cli S) (j : Job) {c : Cfg} {room : Nat} {ep : Ep} {s : RecvSt} {since : Nat} {auth : Option Bytes} {i : CliIn}
    (hf : s.finished = false) (hio : i.file = .all ∨ i.file = .err) {st : CliSt} (hst : (v.step j (.down c room ep s since auth) i).1 = st) :
    (∃ e f, st = .done (.error e) f) ∨
    (∃ s' since', st = .down c room ep s' since' auth ∧ ((v.offers j (.down c room ep s since auth) i = none ∧ s'.w.written = s.w.written ∧ s'.w.out = s.w.out) ∨
      (∃ d, v.offers j (.down c room ep s since auth) i = some d ∧ i.file = .all ∧ s'.w.written = s.w.written + 1 ∧ s'.w.out = s.w.out ++ d))) ∨
    (∃ n d, st = .done (.ok n) (s.w.out ++ d) ∧ v.offers j (.down c room ep s since auth) i = some d ∧ i.file = .all ∧ d.length < c.bs) := by
  simp only [Cli.step, Cli.downStep] at hst
  cases hr : i.recv with
  | error => rw [hr] at hst; exact .inl ⟨_, _, hst.symm⟩
  | wouldBlock =>
    rw [hr] at hst
    simp only at hst
    split at hst
    · exact .inl ⟨_, _, hst.symm⟩
    · exact .inr (.inl ⟨s, since, hst.symm, .inl ⟨by simp only [Cli.offers, hr], rfl, rfl⟩⟩)
  | dgram src dg =>
    rw [hr] at hst
    simp only at hst
    cases hb : c.codec.dec (dg.take room) with
    | none => rw [hb] at hst; exact .inl ⟨_, _, hst.symm⟩
    | some b =>
      rw [hb] at hst
      simp only [Option.isNone_some, Bool.false_eq_true, if_false] at hst
      by_cases hsrc : src ≠ ep
      · rw [if_pos hsrc] at hst
        exact .inr (.inl ⟨s, since, hst.symm, .inl ⟨by simp only [Cli.offers, hr, hb, if_pos hsrc], rfl, rfl⟩⟩)
      · rw [if_neg hsrc] at hst
        split at hst
        · exact .inl ⟨_, _, hst.symm⟩
        · rename_i hx
          split at hst
          · rename_i hfin
            obtain ⟨b', blk, data, n, k, hb', hp, hok, hn⟩ := clientRecv_finished hf hfin
            rw [hb] at hb'
            cases hb'
            obtain ⟨g1, t, g2, g3⟩ := offers_ok hok
            have hall : i.file = .all := by
              rcases hio with h | h
              · exact h
              · rw [h] at g2; cases g2
            have hout : (clientRecv c s (dg.take room) i.file i.sendOk i.nonce).1.w.out = s.w.out ++ data := by
              rw [(clientRecv_data hb hp).1]
              rcases offers_written s.w blk.toNat data hio with ⟨q1, q2⟩ | ⟨q1, q2, q3⟩
              · rw [g1] at q1; cases q1
              · exact (q2 hall).2
            rw [hout] at hst
            refine .inr (.inr ⟨_, data, hst.symm, by simp only [Cli.offers, hr, hb, if_neg hsrc, hp, g1], hall, ?_⟩)
            · rcases hio with h | h
              · rw [h] at g2
                simp only [WriteIo.taken, Option.some.injEq] at g2
                subst g2
                omega
              · rw [h] at g2; cases g2
          · refine .inr (.inl ⟨_, _, hst.symm, ?_⟩)
            simp only [Cli.offers, hr, hb, if_neg hsrc]
            cases hp : Packet.fromBytes b with
            | error e => exact .inl ⟨rfl, by simp only [clientRecv, hb, hp], by simp only [clientRecv, hb, hp]⟩
            | ok p =>
              cases p with
              | data blk data =>
                obtain ⟨w1, w2⟩ := clientRecv_data hb hp (s := s) (io := i.file) (sendOk := i.sendOk) (nonce := i.nonce)
                rw [w1]
                rcases offers_written s.w blk.toNat data hio with ⟨g1, g2⟩ | ⟨g1, g2⟩
                · exact .inl ⟨g1, g2⟩
                · by_cases hall : i.file = .all
                  · obtain ⟨g3, g4⟩ := g2.1 hall
                    exact .inr ⟨data, g1, hall, g3, g4⟩
                  · have := g2.2 (by rcases hio with h | h; exact absurd h hall; exact h)
                    exact absurd (w2 this) hx
              | error x y => exact absurd (by simp only [clientRecv, hb, hp]) hx
              | _ => exact .inl ⟨rfl, by simp only [clientRecv, hb, hp], by simp only [clientRecv, hb, hp]⟩

/-- What is handed to the writer is the next block of the file. -/
theorem offer_block {v : Parties S} {late} (h : Honest v late) {F bound wr seen w}
    (hi : DownInv v late F bound wr seen w) {cf room ep s since auth} (hcl : w.cli = .down cf room ep s since auth) (i : CliIn)
    (ha : Allowed v late w (.client i)) {d : Bytes} (hd : v.cli.offers v.job w.cli i = some d) :
    s.w.written < nblocks (F ep) cf.bs ∧ d = block (F ep) cf.bs (s.w.written + 1) := by
  have hcli := hi.cli
  unfold DownCli at hcli
  rw [hcl] at hcli hd
  obtain ⟨hb, c, hc, hbs, hdec, hroom, hrc, hf0, hx0, hR, rfl⟩ := hcli
  have hco := hi.conn ep c hc
  obtain ⟨ss, m, wd, hss, k2, k3, k4, k5⟩ := hco.side
  rw [if_pos hb] at k3 k4
  have hclock := clock_reader hc hss
  have hpay := payload_471 hco.block
  have hbs0 : 0 < cf.bs := by rw [hbs]; omega
  have hroom1 := k2.sim.inv.room
  have htop1 := k2.sim.inv.top_le
  change wd.top ≤ nblocks (F ep) c.opts.payload at htop1
  change wd.top - wd.base ≤ c.opts.window at hroom1
  have hlt : s.w.written < nblocks (F ep) cf.bs := by
    have h1 : s.w.written ≤ nblocks (F ep) c.opts.payload := Nat.le_trans hR.seen (Nat.le_trans k4 htop1)
    rw [hbs]
    rcases Nat.lt_or_ge s.w.written (nblocks (F ep) c.opts.payload) with h2 | h2
    · exact h2
    · have := hR.done (by rw [hbs]; omega)
      rw [hf0, hx0] at this
      simp at this
  refine ⟨hlt, ?_⟩
  simp only [Cli.offers] at hd
  cases hr : i.recv with
  | error => rw [hr] at hd; cases hd
  | wouldBlock => rw [hr] at hd; cases hd
  | dgram src dg =>
    rw [hr] at hd
    simp only at hd
    cases hbb : cf.codec.dec (dg.take room) with
    | none => rw [hbb] at hd; cases hd
    | some b =>
      rw [hbb] at hd
      simp only at hd
      by_cases hsrc : src ≠ ep
      · rw [if_pos hsrc] at hd; cases hd
      rw [if_neg hsrc] at hd
      have hsrc : src = ep := by simpa using hsrc
      subst hsrc
      have hal := ha.2 src dg hr
      rw [hcl] at hal
      obtain ⟨p, hp, hpe, rfl, hage⟩ := (hal rfl).resolve_right fun hn => by rw [hbb] at hn; cases hn
      have a1 := k5 p hp hpe
      rw [← hroom] at a1
      split at hd
      · rename_i blk data hpk
        have hWk := window_ok h hco.small hpay.1
        obtain ⟨seen', r1, r2, r3, r4⟩ := link_recv (c := cf) (D := (v.srv.transfer c).codec.dec) (now := w.clock src) hbs0 hdec hR k3 k4
          (by rw [hbs]; exact htop1) hroom1 (by rw [hclock, k2.total, hbs]; rfl)
          (by rw [hbs]; exact hWk.imp (Nat.le_trans hco.window) id) (by rw [hbs]; exact a1)
          (by rw [hbs]; exact timely_of h hco.small hpay.1 hco.window hage) true i.sendOk i.nonce
        have heq : recvRecv cf s (p.bytes.take room) .all i.sendOk i.nonce = clientRecv cf s (p.bytes.take room) .all i.sendOk i.nonce := by
          unfold recvRecv; rw [hrc]
        rw [if_pos rfl, heq] at r1
        have hout := r1.out
        rw [(clientRecv_data hbb hpk).1] at hout
        rcases offers_written s.w blk.toNat data (.inl rfl : WriteIo.all = .all ∨ _) with ⟨g1, g2⟩ | ⟨g1, g2, g3⟩
        · rw [hd] at g1; cases g1
        · rw [hd] at g1
          cases g1
          obtain ⟨g4, g5⟩ := g2 rfl
          rw [g4, g5, hR.out, ← take_bytesIn_succ] at hout
          exact List.append_cancel_left hout
      · cases hd

/-- The first answer never brings data. -/
theorem query_calm {v : Parties S} {late} (h : Honest v late) {ok} (hj : v.job.task = .download ok) {F bound wr seen w}
    (hi : DownInv v late F bound wr seen w) (hwc : Whence v w) {q} (hcl : w.cli = .query q) (i : CliIn)
    (ha : Allowed v late w (.client i)) :
    v.cli.offers v.job w.cli i = none ∧ ∀ st, (v.cli.step v.job w.cli i).1 = st →
      (∃ q', st = .query q') ∨ (∃ e f, st = .done (.error e) f) ∨
      ∃ c room ep since auth, st = .down c room ep ⟨Writer.new, 0, 0, false, false⟩ since auth := by
  have hcli := hi.cli
  unfold DownCli at hcli
  rw [hcl] at hcli ⊢
  obtain ⟨rfl, he, hu, hroom⟩ := hcli
  simp only [Cli.step, Cli.queryStep, Cli.offers]
  cases hput : v.cli.put (v.cli.initialSock v.job.opts).1 i.nonce i.sendOk (v.job.request q.exts) with
  | none =>
    refine ⟨?_, fun st h => .inr (.inl ⟨_, _, h.symm⟩)⟩
    cases hr : i.recv <;> simp only [hput]
  | some req =>
    simp only
    cases hr : i.recv with
    | error => exact ⟨rfl, fun st h => .inr (.inl ⟨_, _, h.symm⟩)⟩
    | wouldBlock =>
      simp only
      refine ⟨trivial, fun st h => ?_⟩
      split at h
      · exact .inr (.inl ⟨_, _, h.symm⟩)
      · exact .inl ⟨_, h.symm⟩
    | dgram src d =>
      have hal := ha.2 src d hr
      rw [hcl] at hal
      obtain ⟨hdg, hacc⟩ := hal
      replace hacc := hacc.resolve_left fun hn => by
        have := hn.1
        unfold Job.write at this
        rw [hj] at this
        cases this
      replace hacc : ∀ b, v.sock.recv (d.take q.room) = some b → Answer b → (src, d) ∈ w.acc :=
        fun b hb hA => whence_answer h hwc hroom hdg hb hA (hacc b hb hA)
      simp only [hput]
      cases hb : (v.cli.initialSock v.job.opts).1.recv (d.take q.room) with
      | none => exact ⟨rfl, fun st h => .inr (.inl ⟨_, _, h.symm⟩)⟩
      | some b =>
        obtain ⟨p, hp, hpe, hpd⟩ := hdg.resolve_right fun hn => by
          rw [show v.sock.recv (d.take q.room) = some b from hb] at hn
          cases hn
        have hip : src.ip = v.cli.cfg.endpoint.ip := by rw [← hpe]; exact (hi.downs p hp).1
        have hip' : ¬ src.ip ≠ v.cli.cfg.endpoint.ip := by simpa using hip
        simp only [if_neg hip']
        by_cases hport : src ≠ v.cli.cfg.endpoint ∧ v.cli.cfg.allowPortChange = false
        · simp only [if_pos hport]
          exact ⟨trivial, fun st h => .inr (.inl ⟨_, _, h.symm⟩)⟩
        · simp only [if_neg hport]
          by_cases hA : Answer b
          · obtain ⟨c, hc, hac⟩ := hi.acc _ (hacc b hb hA)
            simp only at hc hac
            have htake : d.take q.room = d := List.take_of_length_le (by rw [hroom]; exact hac.room)
            rw [htake] at hb
            obtain ⟨b', hb', hrep⟩ := hac.reply
            have hbb : b' = b := by
              have : v.sock.recv d = some b := hb
              rw [hb'] at this
              exact Option.some.inj this
            subst hbb
            have hrep := hrep q.used q.initial hu
            change match v.cli.reply v.job.write (v.cli.requestOpts v.job) q.used q.initial b' with
              | .accept _ o rk first => first = none ∧ Agreed v c o rk
              | .again => False
              | .fail _ ps => ∀ p ∈ ps, ∀ i ok d', v.cli.put v.sock i ok p = some d' → ∀ file bs n mark,
                  DataFine (v.srv.transfer c).codec.dec file bs n mark d' ∧ AckFine (v.srv.transfer c).codec.dec file bs n mark d' at hrep
            cases hrp : v.cli.reply v.job.write (v.cli.requestOpts v.job) q.used q.initial b' with
            | again => rw [hrp] at hrep; exact hrep.elim
            | fail e ps => exact ⟨rfl, fun st h => .inr (.inl ⟨_, _, h.symm⟩)⟩
            | accept ack o rk first =>
              rw [hrp] at hrep
              obtain ⟨rfl, hag⟩ := hrep
              refine ⟨rfl, fun st h => ?_⟩
              simp only [Cli.accepted, hj] at h
              split at h
              · exact .inr (.inl ⟨_, _, h.symm⟩)
              · split at h
                · exact .inr (.inl ⟨_, _, h.symm⟩)
                · split at h
                  · exact .inr (.inl ⟨_, _, h.symm⟩)
                  · exact .inr (.inr ⟨_, _, _, _, _, h.symm⟩)
          · rcases reply_other v.cli v.job.write (v.cli.requestOpts v.job) q.used q.initial hA with ⟨h1, h2⟩ | ⟨e, h1⟩
            · rw [h1]
              exact ⟨rfl, fun st h => .inl ⟨_, h.symm⟩⟩
            · rw [h1]
              exact ⟨rfl, fun st h => .inr (.inl ⟨_, _, h.symm⟩)⟩

/-- What is known of the decrypting writer. -/
def SealedInv (A : StreamAead) (us : List Upload) (F : Ep → Bytes) (s : CliSt) (o : StreamOut) : Prop :=
  match s with
  | .query _ => o = StreamOut.new
  | .up _ _ _ _ _ _ => False
  | .down cf _ ep s _ _ => ∃ u ∈ us, u.Fits ∧ u.len = cf.bs ∧ F ep = sealed A u.nonce u.file u.len ∧
      ((s.w.written = 0 ∧ o = StreamOut.new) ∨ WroteAt u s.w.written o)
  | .done (.ok _) f => ∃ u ∈ us, u.Fits ∧ f = sealed A u.nonce u.file u.len ∧ o.out = u.file
  | .done (.error _) _ => Leading us o

theorem SealedInv.whole {A us F s o} (h : SealedInv A us F s o) : Leading us o := by
  unfold SealedInv at h
  split at h
  · subst h; exact .inl rfl
  · exact h.elim
  · obtain ⟨u, hu, h1, h2, h3, ⟨-, rfl⟩ | h4⟩ := h
    · exact .inl rfl
    · exact .inr ⟨u, hu, _, h4.le, h4.out⟩
  · obtain ⟨u, hu, h0, h1, h2⟩ := h
    exact .inr ⟨u, hu, pieces u.file u.len, Nat.le_refl _, by rw [h2, take_all h0.len.1]⟩
  · exact h

theorem sealed_client {A : StreamAead} {v : Parties S} {us : List Upload} {late} (h : Honest v late) {ok} (hj : v.job.task = .download ok)
    {F bound wr seen} {x : World × StreamOut} (hi : DownInv v late F bound wr seen x.1) (hwc : Whence v x.1) (hx : SealedInv A us F x.1.cli x.2) (i : CliIn)
    (ha : Allowed v late x.1 (.client i)) (hs : Sealed A v us (v.sealedStep A x (.client i)).1) :
    let r := x.2.handle A (v.cli.offers v.job x.1.cli i) i.file
    Allowed v late x.1 (.client { i with file := r.2 }) ∧
    ∃ bound' wr' seen', DownInv v late F bound' wr' seen' (v.sealedStep A x (.client i)).1 ∧
      SealedInv A us F (v.sealedStep A x (.client i)).1.cli (v.sealedStep A x (.client i)).2 := by
  obtain ⟨w, o⟩ := x
  simp only at hi hwc hx ha ⊢
  have hw := hx.whole
  have hcli := hi.cli
  unfold DownCli at hcli
  generalize hr : o.handle A (v.cli.offers v.job w.cli i) i.file = r
  simp only [Parties.sealedStep, hr] at hs ⊢
  have hal : r.2 = .all ∨ r.2 = .err → Allowed v late w (.client { i with file := r.2 }) := fun hio => ⟨hio, ha.2⟩
  have hst : (v.step w (.client { i with file := r.2 })).cli = (v.cli.step v.job w.cli { i with file := r.2 }).1 := rfl
  cases hcl : w.cli with
  | query q =>
    obtain ⟨q1, -⟩ := query_calm h hj hi hwc hcl i ha
    rw [q1] at hr
    have hro : r = (o, i.file) := hr.symm
    subst hro
    have ha' := hal ha.1
    refine ⟨ha', ?_⟩
    obtain ⟨b', w', s', hi'⟩ := down_client h hj hi hwc _ ha'
    refine ⟨b', w', s', hi', ?_⟩
    obtain ⟨-, q2⟩ := query_calm h hj hi hwc hcl _ ha'
    have hcli' := hi'.cli
    unfold DownCli at hcli'
    rw [hst] at hcli' ⊢
    rw [hcl] at hx
    rcases q2 _ rfl with ⟨q', e⟩ | ⟨x, f, e⟩ | ⟨cf, room, ep, since, auth, e⟩
    · rw [e]; exact hx
    · rw [e]; exact hw
    · rw [e] at hcli' ⊢
      obtain ⟨hb, c, hc, hbs, -⟩ := hcli'
      obtain ⟨u, hu, u1, u2, u3⟩ := hs ep c (F ep) hc (hi'.conn ep c hc).opened
      exact ⟨u, hu, u1, by rw [u2, hbs], u3, .inl ⟨rfl, hx⟩⟩
  | up => rw [hcl] at hx; exact hx.elim
  | done y f =>
    have hro : r = (o, i.file) := by rw [hcl] at hr; exact hr.symm
    subst hro
    have ha' := hal ha.1
    refine ⟨ha', ?_⟩
    obtain ⟨b', w', s', hi'⟩ := down_client h hj hi hwc _ ha'
    refine ⟨b', w', s', hi', ?_⟩
    rw [hst, hcl]
    rw [hcl] at hx
    exact hx
  | down cf room ep s since auth =>
    rw [hcl] at hx hcli
    obtain ⟨hb, c, hc, hbs, hdec, hroom, hrc, hf0, hx0, hR, hwr⟩ := hcli
    obtain ⟨u, hu, u1, u2, u3, u4⟩ := hx
    obtain ⟨n1, n2⟩ := sealed_blocks (A := A) u1
    -- what the writer does
    have key : (r.2 = .all ∨ r.2 = .err) ∧ Leading us r.1 ∧
        (v.cli.offers v.job w.cli i = none → r.1 = o) ∧
        ∀ d, v.cli.offers v.job w.cli i = some d → r.2 = .all → WroteAt u (s.w.written + 1) r.1 ∧
          (d.length < cf.bs → s.w.written + 1 = pieces u.file u.len) := by
      cases hof : v.cli.offers v.job w.cli i with
      | none =>
        rw [hof] at hr
        subst hr
        exact ⟨ha.1, hw, fun _ => rfl, fun d hd => nomatch hd⟩
      | some d =>
        obtain ⟨d1, d2⟩ := offer_block h hi hcl i ha hof
        rw [u3, ← u2, n1] at d1
        rw [u3, ← u2, n2 _ d1] at d2
        rw [hof] at hr
        rcases ha.1 with hio | hio
        · have hwrite : ∃ o', o.write A d i.file = (o', .ok d.length) ∧ WroteAt u (s.w.written + 1) o' := by
            rw [hio, d2]
            rcases u4 with ⟨z, rfl⟩ | hwr
            · rw [z]; exact write_first_block u1
            · exact write_block u1 hwr d1
          obtain ⟨o', w1, w2⟩ := hwrite
          simp only [StreamOut.handle, w1, if_true] at hr
          subst hr
          refine ⟨.inl rfl, .inr ⟨u, hu, _, w2.le, w2.out⟩, (fun hn => nomatch hn), fun x hx _ => ⟨w2, fun hlt => ?_⟩⟩
          cases hx
          apply Classical.byContradiction
          intro hne
          have := sealedBlock_full (A := A) u1 (k := s.w.written) (by omega)
          rw [← d2] at this
          omega
        · obtain ⟨o', e, w1, w2⟩ := write_err (A := A) o d
          simp only [StreamOut.handle, hio, w1] at hr
          subst hr
          refine ⟨.inr rfl, ?_, (fun hn => nomatch hn), fun x hx hn => nomatch hn⟩
          rcases hw with hw | ⟨u, hu, k, hk, hw⟩
          · exact .inl (by rw [w2, hw])
          · exact .inr ⟨u, hu, k, hk, by rw [w2, hw]⟩
    obtain ⟨hio, hwh, hnone, hsome⟩ := key
    have ha' := hal hio
    rw [hcl] at hnone hsome
    refine ⟨ha', ?_⟩
    obtain ⟨w', s', hi'⟩ := down_down h hi hcl _ ha'
    refine ⟨bound, w', s', hi', ?_⟩
    have hcli' := hi'.cli
    unfold DownCli at hcli'
    rw [hst, hcl] at hcli' ⊢
    have hofe : v.cli.offers v.job (.down cf room ep s since auth) { i with file := r.2 } = v.cli.offers v.job (.down cf room ep s since auth) i := rfl
    rcases down_outcome v.cli v.job (i := { i with file := r.2 }) hf0 hio rfl with ⟨x, f, e⟩ | ⟨s1, since', e, ⟨g1, g2, g3⟩ | ⟨d, g1, g2, g3, g4⟩⟩ | ⟨n, d, e, g1, g2, g3⟩
    · rw [e]; exact hwh
    · rw [e]
      rw [hofe] at g1
      rw [hnone g1]
      exact ⟨u, hu, u1, u2, u3, by rw [g2]; exact u4⟩
    · rw [e]
      exact ⟨u, hu, u1, u2, u3, .inr (by rw [g3]; exact (hsome d g1 g2).1)⟩
    · rw [e] at hcli' ⊢
      obtain ⟨n, au⟩ := n
      obtain ⟨e', he', -, hf⟩ := hcli'
      rw [hb] at he'
      cases he'
      obtain ⟨w1, w2⟩ := hsome d g1 g2
      exact ⟨u, hu, u1, by rw [hf, u3], w1.complete u1 (w2 g3)⟩

theorem sealed_reach {A : StreamAead} {v : Parties S} {us : List Upload} {late} (h : Honest v late) {ok} (hj : v.job.task = .download ok)
    {x : World × StreamOut} (hr : SealedReach A v us late x) :
    Reach v late x.1 ∧ ∃ F bound wr seen, DownInv v late F bound wr seen x.1 ∧ SealedInv A us F x.1.cli x.2 := by
  induction hr with
  | init t => exact ⟨.init t, _, none, 0, 0, down_init v late t, rfl⟩
  | step x e _ ha hs ih =>
    obtain ⟨hre, F, bound, wr, seen, hi, hx⟩ := ih
    cases e with
    | server ep e =>
      refine ⟨.step _ _ hre ha, ?_⟩
      obtain ⟨F', hF, hi'⟩ := down_server h hj hi ep e ha
      refine ⟨F', bound, wr, seen, hi', ?_⟩
      have hc : (v.step x.1 (.server ep e)).cli = x.1.cli := by
        simp only [Parties.step]
        repeat' split
        all_goals rfl
      simp only [Parties.sealedStep, hc]
      have hcli := hi.cli
      unfold DownCli at hcli
      generalize x.1.cli = st at hx hcli
      cases st with
      | down cf room ep s since auth =>
        obtain ⟨u, hu, u1, u2, u3, u4⟩ := hx
        exact ⟨u, hu, u1, u2, by rw [hF ep (hi.tied ep hcli.1)]; exact u3, u4⟩
      | done r f => cases r <;> exact hx
      | _ => exact hx
    | client i =>
      obtain ⟨ha', b', w', s', hi', hx'⟩ := sealed_client h hj hi (down_reach_whence h hj hre).2 hx i ha hs
      exact ⟨.step _ _ hre ha', F, b', w', s', hi', hx'⟩

/-- **C56.** Round trip: a client downloads, over a network which loses, repeats and reorders datagrams, a file which was encrypted with its key, in blocks of
the size agreed for the download. At any time its local file holds whole pieces, from the beginning, of the original file of an upload; if it reports success,
what it received is an encrypted file the server opened for it, and the local file is the original of this file. -/
theorem c56_round_trip {A : StreamAead} {v : Parties S} {us : List Upload} {late} (h : Honest v late) {ok} (hj : v.job.task = .download ok)
    {w : World} {o : StreamOut} (hr : SealedReach A v us late (w, o)) :
    (o.out = [] ∨ ∃ u ∈ us, ∃ k, k ≤ pieces u.file u.len ∧ o.out = u.file.take (cut u.len k)) ∧
    (∀ n auth f, w.cli = .done (.ok (n, auth)) f →
      ∃ e, Served v w e f ∧ ∃ u ∈ us, f = sealed A u.nonce u.file u.len ∧ o.out = u.file) := by
  obtain ⟨hre, F, bound, wr, seen, hi, hx⟩ := sealed_reach h hj hr
  refine ⟨hx.whole, fun n auth f hd => ?_⟩
  obtain ⟨e, h1, -⟩ := (c53_download h hj hre).2.1 n auth f hd
  simp only [hd] at hx
  obtain ⟨u, hu, -, u2, u3⟩ := hx
  exact ⟨e, h1, u, hu, u2, u3⟩

/-! ### Any block size -/

/-- Specification: every file which the server has opened for the client is one of the uploads `us`, encrypted with the client's key. -/
def Spec.SealedAny (A : StreamAead) (v : Parties S) (us : List Upload) (w : World) : Prop :=
  ∀ e file, Served v w e file → ∃ u ∈ us, file = sealed A u.nonce u.file u.len

/-- What can be reached, with the assumptions of C53; nothing the client gets from the server decrypts by chance. -/
inductive Spec.SealedReachAny (A : StreamAead) (v : Parties S) (us : List Upload) (late : Option Nat) : World × StreamOut → Prop
  | init (t : Nat) : SealedReachAny A v us late (v.init t, StreamOut.new)
  | step (x : World × StreamOut) (e : WEv) : SealedReachAny A v us late x → Allowed v late x.1 e → SealedAny A v us (v.sealedStep A x e).1 →
      (∀ i, e = .client i → ∀ d ∈ v.cli.offers v.job x.1.cli i, Genuine A us d) → SealedReachAny A v us late (v.sealedStep A x e)

theorem write_new_nonce {A : StreamAead} {d : Bytes} {io : WriteIo} {s : StreamOut} {n : Nat} (h : StreamOut.new.write A d io = (s, .ok n)) :
    21 ≤ d.length ∧ ∃ p, s.dec = some ((d.drop 2).take 19, p) := by
  simp only [StreamOut.write, StreamOut.parse, StreamOut.new, if_true] at h
  split at h
  · cases h
  rename_i s1 f hp
  split at hp
  · cases hp
  split at hp
  · cases hp
  split at hp
  · cases hp
  rename_i h21
  simp only [Except.ok.injEq, Prod.mk.injEq] at hp
  obtain ⟨rfl, rfl⟩ := hp
  refine ⟨by omega, ?_⟩
  simp only at h
  split at h
  · cases h
  split at h
  · cases h
  split at h
  · simp only [Prod.mk.injEq] at h
    rw [← h.1]
    exact ⟨_, rfl⟩
  · cases h

theorem sealed_length {A : StreamAead} {u : Upload} (h : u.Fits) :
    (pieces u.file u.len - 1) * u.len + 16 ≤ (sealed A u.nonce u.file u.len).length := by
  obtain ⟨-, h2⟩ := sealed_blocks (A := A) h
  have hpos : 0 < pieces u.file u.len := Nat.succ_pos _
  have := h2 (pieces u.file u.len - 1) (by omega)
  have hl : (block (sealed A u.nonce u.file u.len) u.len (pieces u.file u.len - 1 + 1)).length ≥ 16 := by
    rw [this, sealedBlock_length h]; omega
  unfold block at hl
  rw [List.length_take, List.length_drop, Nat.add_sub_cancel] at hl
  omega

theorem sealed_prefix {A : StreamAead} {u : Upload} (h : u.Fits) {bs : Nat} (hd : 21 ≤ (block (sealed A u.nonce u.file u.len) bs 1).length) :
    ((block (sealed A u.nonce u.file u.len) bs 1).drop 2).take 19 = u.nonce := by
  unfold block at hd ⊢
  simp only [Nat.sub_self, Nat.zero_mul, List.drop_zero] at hd ⊢
  rw [List.length_take] at hd
  rw [List.drop_take, List.take_take, Nat.min_eq_left (by omega)]
  unfold sealed
  simp [be16, h.nonce]

/-- What is known of the decrypting writer. -/
def SealedInvAny (A : StreamAead) (us : List Upload) (F : Ep → Bytes) (s : CliSt) (o : StreamOut) : Prop :=
  match s with
  | .query _ => o = StreamOut.new
  | .up _ _ _ _ _ _ => False
  | .down _ _ ep s _ _ => ∃ u ∈ us, F ep = sealed A u.nonce u.file u.len ∧
      ((s.w.written = 0 ∧ s.w.out = [] ∧ o = StreamOut.new) ∨
        (WroteAt u s.w.written o ∧ (s.w.written < pieces u.file u.len → s.w.out.length = s.w.written * u.len)))
  | .done (.ok _) f => ∃ u ∈ us, f = sealed A u.nonce u.file u.len ∧ o.out = u.file
  | .done (.error _) _ => Leading us o

theorem SealedInvAny.whole {A us F s o} (hus : ∀ u ∈ us, u.Fits) (h : SealedInvAny A us F s o) : Leading us o := by
  unfold SealedInvAny at h
  split at h
  · subst h; exact .inl rfl
  · exact h.elim
  · obtain ⟨u, hu, h1, ⟨-, -, rfl⟩ | h4⟩ := h
    · exact .inl rfl
    · exact .inr ⟨u, hu, _, h4.1.le, h4.1.out⟩
  · obtain ⟨u, hu, h1, h2⟩ := h
    exact .inr ⟨u, hu, pieces u.file u.len, Nat.le_refl _, by rw [h2, take_all (hus u hu).len.1]⟩
  · exact h

theorem any_client {A : StreamAead} {v : Parties S} {us : List Upload} {late} (h : Honest v late) {ok} (hj : v.job.task = .download ok)
    (hus : ∀ u ∈ us, u.Fits) (hfr : Fresh us)
    {F bound wr seen} {x : World × StreamOut} (hi : DownInv v late F bound wr seen x.1) (hwc : Whence v x.1) (hx : SealedInvAny A us F x.1.cli x.2) (i : CliIn)
    (ha : Allowed v late x.1 (.client i)) (hs : SealedAny A v us (v.sealedStep A x (.client i)).1)
    (hg : ∀ d ∈ v.cli.offers v.job x.1.cli i, Genuine A us d) :
    let r := x.2.handle A (v.cli.offers v.job x.1.cli i) i.file
    Allowed v late x.1 (.client { i with file := r.2 }) ∧
    ∃ bound' wr' seen', DownInv v late F bound' wr' seen' (v.sealedStep A x (.client i)).1 ∧
      SealedInvAny A us F (v.sealedStep A x (.client i)).1.cli (v.sealedStep A x (.client i)).2 := by
  obtain ⟨w, o⟩ := x
  simp only at hi hwc hx ha hg ⊢
  have hw := hx.whole hus
  have hcli := hi.cli
  unfold DownCli at hcli
  generalize hr : o.handle A (v.cli.offers v.job w.cli i) i.file = r
  simp only [Parties.sealedStep, hr] at hs ⊢
  have hal : r.2 = .all ∨ r.2 = .err → Allowed v late w (.client { i with file := r.2 }) := fun hio => ⟨hio, ha.2⟩
  have hst : (v.step w (.client { i with file := r.2 })).cli = (v.cli.step v.job w.cli { i with file := r.2 }).1 := rfl
  cases hcl : w.cli with
  | query q =>
    obtain ⟨q1, -⟩ := query_calm h hj hi hwc hcl i ha
    rw [q1] at hr
    have hro : r = (o, i.file) := hr.symm
    subst hro
    have ha' := hal ha.1
    refine ⟨ha', ?_⟩
    obtain ⟨b', w', s', hi'⟩ := down_client h hj hi hwc _ ha'
    refine ⟨b', w', s', hi', ?_⟩
    obtain ⟨-, q2⟩ := query_calm h hj hi hwc hcl _ ha'
    have hcli' := hi'.cli
    unfold DownCli at hcli'
    rw [hst] at hcli' ⊢
    rw [hcl] at hx
    rcases q2 _ rfl with ⟨q', e⟩ | ⟨x, f, e⟩ | ⟨cf, room, ep, since, auth, e⟩
    · rw [e]; exact hx
    · rw [e]; exact hw
    · rw [e] at hcli' ⊢
      obtain ⟨hb, c, hc, hbs, -⟩ := hcli'
      obtain ⟨u, hu, u3⟩ := hs ep (F ep) (hi'.conn ep c hc).opened
      exact ⟨u, hu, u3, .inl ⟨rfl, rfl, hx⟩⟩
  | up => rw [hcl] at hx; exact hx.elim
  | done y f =>
    have hro : r = (o, i.file) := by rw [hcl] at hr; exact hr.symm
    subst hro
    have ha' := hal ha.1
    refine ⟨ha', ?_⟩
    obtain ⟨b', w', s', hi'⟩ := down_client h hj hi hwc _ ha'
    refine ⟨b', w', s', hi', ?_⟩
    rw [hst, hcl]
    rw [hcl] at hx
    exact hx
  | down cf room ep s since auth =>
    rw [hcl] at hx hcli
    obtain ⟨hb, c, hc, hbs, hdec, hroom, hrc, hf0, hx0, hR, hwr⟩ := hcli
    obtain ⟨u, hu, u3, u4⟩ := hx
    have u1 := hus u hu
    -- what the writer does
    have hfed : Fed us o := by
      rcases u4 with ⟨-, -, h⟩ | h
      · exact .inl h
      · exact .inr ⟨u, hu, _, h.1⟩
    obtain ⟨k1, k2, -, -⟩ := handle_fed hus hfr hfed hg ha.1
    have key : (v.cli.offers v.job w.cli i = none → r.1 = o) ∧
        ∀ d, v.cli.offers v.job w.cli i = some d → r.2 = .all → WroteAt u (s.w.written + 1) r.1 ∧
          (s.w.written + 1 < pieces u.file u.len → (s.w.out ++ d).length = (s.w.written + 1) * u.len) := by
      refine ⟨fun hn => by rw [hn] at hr; exact congrArg Prod.fst hr.symm, fun d hd hall => ?_⟩
      obtain ⟨d1, d2⟩ := offer_block h hi hcl i ha hd
      obtain ⟨g1, g2⟩ := hg d hd
      rw [hd] at hr
      unfold StreamOut.handle at hr
      simp only at hr
      cases hwrt : o.write A d i.file with
      | mk o' y =>
        rw [hwrt] at hr
        cases y with
        | error e => simp only at hr; subst hr; cases hall
        | ok n =>
          simp only at hr
          have hro : r.1 = o' := by rw [← hr]
          rw [hro]
          rcases u4 with ⟨z1, z2, rfl⟩ | ⟨z1, z2⟩
          · obtain ⟨rfl, u', hu', w1, w2⟩ := write_first hus g2 ha.1 hwrt
            obtain ⟨n1, p, n2⟩ := write_new_nonce hwrt
            have hnon : u'.nonce = u.nonce := by
              have := w1.dec
              rw [n2] at this
              simp only [Option.some.injEq, Prod.mk.injEq] at this
              rw [← this.1, d2, z1, u3]
              rw [d2, z1, u3] at n1
              exact sealed_prefix u1 n1
            have := hfr u' hu' u hu hnon
            subst this
            rw [z1]
            exact ⟨w1, fun hlt => by rw [z2, List.nil_append, w2 hlt]; omega⟩
          · obtain ⟨rfl, w0, w1, w2⟩ := write_next hus hfr g1 ha.1 hu z1 hwrt
            exact ⟨w1, fun hlt => by rw [List.length_append, z2 w0, w2 hlt, Nat.succ_mul]⟩
    rw [hr] at k1 k2
    obtain ⟨hnone, hsome⟩ := key
    have ha' := hal k2
    rw [hcl] at hnone hsome
    refine ⟨ha', ?_⟩
    obtain ⟨w', s', hi'⟩ := down_down h hi hcl _ ha'
    refine ⟨bound, w', s', hi', ?_⟩
    have hcli' := hi'.cli
    unfold DownCli at hcli'
    rw [hst, hcl] at hcli' ⊢
    have hofe : v.cli.offers v.job (.down cf room ep s since auth) { i with file := r.2 } = v.cli.offers v.job (.down cf room ep s since auth) i := rfl
    rcases down_outcome v.cli v.job (i := { i with file := r.2 }) hf0 k2 rfl with ⟨x, f, e⟩ | ⟨s1, since', e, ⟨g1, g2, g3⟩ | ⟨d, g1, g2, g3, g4⟩⟩ | ⟨n, d, e, g1, g2, g3⟩
    · rw [e]; exact k1
    · rw [e]
      rw [hofe] at g1
      rw [hnone g1]
      exact ⟨u, hu, u3, by rw [g2, g3]; exact u4⟩
    · rw [e]
      obtain ⟨w1, w2⟩ := hsome d g1 g2
      exact ⟨u, hu, u3, .inr ⟨by rw [g3]; exact w1, by rw [g3, g4]; exact w2⟩⟩
    · rw [e] at hcli' ⊢
      obtain ⟨n, au⟩ := n
      obtain ⟨e', he', -, hf⟩ := hcli'
      rw [hb] at he'
      cases he'
      obtain ⟨w1, w2⟩ := hsome d g1 g2
      refine ⟨u, hu, by rw [hf, u3], w1.complete u1 ?_⟩
      apply Classical.byContradiction
      intro hne
      have hlt : s.w.written + 1 < pieces u.file u.len := by have := w1.le; omega
      have h1 := w2 hlt
      rw [hf, u3] at h1
      have h2 := sealed_length (A := A) u1
      have h3 : (s.w.written + 1) * u.len ≤ (pieces u.file u.len - 1) * u.len := Nat.mul_le_mul_right _ (by omega)
      omega

/-- **C56.** Whatever block size and encryption level is agreed for the download: if it reports success, the local file is the original of an
encrypted file which the server opened for it. (If the block size is not the one of the upload, and the file has more than one block, it fails.) -/
theorem c56_any_block_size {A : StreamAead} {v : Parties S} {us : List Upload} {late} (h : Honest v late) {ok} (hj : v.job.task = .download ok)
    (hus : ∀ u ∈ us, u.Fits) (hfr : Fresh us) {w : World} {o : StreamOut} (hr : SealedReachAny A v us late (w, o)) {n auth f}
    (hd : w.cli = .done (.ok (n, auth)) f) :
    ∃ e, Served v w e f ∧ ∃ u ∈ us, f = sealed A u.nonce u.file u.len ∧ o.out = u.file := by
  have key : ∀ x, SealedReachAny A v us late x →
      Reach v late x.1 ∧ ∃ F bound wr seen, DownInv v late F bound wr seen x.1 ∧ SealedInvAny A us F x.1.cli x.2 := by
    intro x hr
    induction hr with
    | init t => exact ⟨.init t, _, none, 0, 0, down_init v late t, rfl⟩
    | step x e _ ha hs hg ih =>
      obtain ⟨hre, F, bound, wr, seen, hi, hx⟩ := ih
      cases e with
      | server ep e =>
        refine ⟨.step _ _ hre ha, ?_⟩
        obtain ⟨F', hF, hi'⟩ := down_server h hj hi ep e ha
        refine ⟨F', bound, wr, seen, hi', ?_⟩
        have hc : (v.step x.1 (.server ep e)).cli = x.1.cli := by
          simp only [Parties.step]
          repeat' split
          all_goals rfl
        simp only [Parties.sealedStep, hc]
        have hcli := hi.cli
        unfold DownCli at hcli
        generalize x.1.cli = st at hx hcli
        cases st with
        | down cf room ep s since auth =>
          obtain ⟨u, hu, u3, u4⟩ := hx
          exact ⟨u, hu, by rw [hF ep (hi.tied ep hcli.1)]; exact u3, u4⟩
        | done r f => cases r <;> exact hx
        | _ => exact hx
      | client i =>
        obtain ⟨ha', b', w', s', hi', hx'⟩ := any_client h hj hus hfr hi (down_reach_whence h hj hre).2 hx i ha hs (hg i rfl)
        exact ⟨.step _ _ hre ha', F, b', w', s', hi', hx'⟩
  obtain ⟨hre, F, bound, wr, seen, hi, hx⟩ := key _ hr
  obtain ⟨e, h1, -⟩ := (c53_download h hj hre).2.1 n auth f hd
  simp only [hd] at hx
  obtain ⟨u, hu, u2, u3⟩ := hx
  exact ⟨e, h1, u, hu, u2, u3⟩

end Tftp

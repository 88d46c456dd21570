import Verif.EndLive
/-
C74 for downloads.
-/
namespace Tftp
open Spec

variable {S : SigScheme}

theorem accepted_max {v : Cli S} {j : Job} {ep ack o rk first i cf room ep' s since auth}
    (h : (v.accepted j ep ack o rk first i).1 = .down cf room ep' s since auth) : cf.max = v.cfg.maxFileSize := by
  unfold Cli.accepted at h
  simp only at h
  generalize (if ack = true then _ else _ : Option (List Bytes)) = hs at h
  cases ht : j.task with
  | upload n file =>
    rw [ht] at h
    cases hs <;> cases h
  | download ok =>
    rw [ht] at h
    simp only at h
    repeat' split at h
    all_goals cases h
    all_goals rfl

theorem down_max {v : Parties S} {late} {w} (hr : Reach v late w) {cf room ep s since auth}
    (hc : w.cli = .down cf room ep s since auth) : cf.max = v.cli.cfg.maxFileSize := by
  suffices ∀ cf room ep s since auth, w.cli = .down cf room ep s since auth → cf.max = v.cli.cfg.maxFileSize from this _ _ _ _ _ _ hc
  clear hc
  induction hr with
  | init t => intro cf room ep s since auth hc; cases hc
  | step w e _ _ ih =>
    intro cf room ep s since auth hc
    cases e with
    | server ep e =>
      have : (v.step w (.server ep e)).cli = w.cli := by
        simp only [Parties.step]
        repeat' split
        all_goals rfl
      rw [this] at hc
      exact ih _ _ _ _ _ _ hc
    | client i =>
      have hc : (v.cli.step v.job w.cli i).1 = .down cf room ep s since auth := hc
      cases hw : w.cli with
      | done r f => rw [hw] at hc; cases hc
      | up cf1 room1 ep1 s1 since1 auth1 =>
        rw [hw] at hc
        simp only [Cli.step, Cli.upStep] at hc
        repeat' split at hc
        all_goals cases hc
      | down cf1 room1 ep1 s1 since1 auth1 =>
        have h1 := ih _ _ _ _ _ _ hw
        rw [hw] at hc
        simp only [Cli.step, Cli.downStep] at hc
        repeat' split at hc
        all_goals first | cases hc | skip
        all_goals exact h1
      | query q =>
        rw [hw] at hc
        simp only [Cli.step, Cli.queryStep] at hc
        split at hc
        · cases hc
        · split at hc
          · cases hc
          · split at hc <;> cases hc
          · split at hc
            · cases hc
            · split at hc
              · cases hc
              · split at hc
                · cases hc
                · split at hc
                  · cases hc
                  · cases hc
                  · exact accepted_max hc

/-- Every connection has a window of at least one block. -/
theorem conn_window {v : Parties S} {late} (h : Honest v late) {w} (hr : Reach v late w) {e c} (hc : w.conns e = some c) :
    1 ≤ c.opts.window := by
  suffices ∀ e c, w.conns e = some c → 1 ≤ c.opts.window from this _ _ hc
  clear hc
  induction hr with
  | init t => intro e c hc; cases hc
  | step w ev _ _ ih =>
    intro e c hc
    cases ev with
    | client i => exact ih _ _ hc
    | server ep ev =>
      simp only [Parties.step] at hc
      split at hc
      · rename_i l hl
        split at hc
        · exact ih _ _ hc
        · rename_i c0 hc0
          split at hc
          · rename_i c' hc'
            simp only at hc
            by_cases he : e = l
            · subst he
              rw [setAt_same, Option.some.injEq] at hc
              subst hc
              have : c'.opts = c0.opts := by
                cases ev with
                | start t dg io => simp only [Srv.lifeStep, Option.some.injEq] at hc'; rw [← hc']
                | tick t io =>
                  simp only [Srv.lifeStep] at hc'
                  split at hc'
                  · simp only [Option.some.injEq] at hc'
                    rw [← hc']
                    unfold Srv.sendBlock
                    split
                    · rfl
                    · simp only; split <;> rfl
                  · simp only [Option.some.injEq] at hc'; rw [← hc']
                | recv t dg io =>
                  simp only [Srv.lifeStep] at hc'
                  split at hc'
                  · simp only [Option.some.injEq] at hc'; rw [← hc']
                  · simp only [Option.some.injEq] at hc'
                    rw [← hc']
                    unfold Srv.handle
                    split
                    · simp only; split <;> rfl
                    · rfl
                | check t io =>
                  simp only [Srv.lifeStep] at hc'
                  split at hc'
                  · cases hc'
                  · simp only [Option.some.injEq] at hc'; rw [← hc']
                | drop => simp only [Srv.lifeStep] at hc'; cases hc'
              rw [this]
              exact ih _ _ hc0
            · rw [setAt_other he] at hc
              exact ih _ _ hc
          · exact ih _ _ hc
      · split at hc
        · rename_i c0 out hres
          simp only at hc
          by_cases he : e = ep
          · subst he
            rw [setAt_same, Option.some.injEq] at hc
            subst hc
            cases ev with
            | start t dg io =>
              simp only [Srv.lifeStep] at hres
              split at hres
              · rename_i c1 out1 hr1
                simp only [Prod.mk.injEq, Option.some.injEq] at hres
                obtain ⟨rfl, rfl⟩ := hres
                obtain ⟨write, r, used, keys, name, kind, -, g2, -⟩ := newConn_ok hr1
                exact (c16_server_limits v.srv.cfg h.maxBlock.1 h.maxWindow.1 _ _ _ _ _ _ _ g2).2.1.1
              · simp at hres
            | tick t io => simp [Srv.lifeStep] at hres
            | recv t dg io => simp [Srv.lifeStep] at hres
            | check t io => simp [Srv.lifeStep] at hres
            | drop => simp [Srv.lifeStep] at hres
          · rw [setAt_other he] at hc
            exact ih _ _ hc
        · exact ih _ _ hc

/-- The factor of the retransmission timer is at least one and at most 255. -/
theorem conn_mult {v : Parties S} {late} {w} (hr : Reach v late w) {e c} (hc : w.conns e = some c) :
    1 ≤ c.mult ∧ c.mult ≤ 255 := by
  suffices ∀ e c, w.conns e = some c → 1 ≤ c.mult ∧ c.mult ≤ 255 from this _ _ hc
  clear hc
  induction hr with
  | init t => intro e c hc; cases hc
  | step w ev _ _ ih =>
    intro e c hc
    cases ev with
    | client i => exact ih _ _ hc
    | server ep ev =>
      simp only [Parties.step] at hc
      split at hc
      · rename_i l hl
        split at hc
        · exact ih _ _ hc
        · rename_i c0 hc0
          split at hc
          · rename_i c' hc'
            simp only at hc
            by_cases he : e = l
            · subst he
              rw [setAt_same, Option.some.injEq] at hc
              subst hc
              have hi := ih _ _ hc0
              have : 1 ≤ c'.mult ∧ c'.mult ≤ 255 := by
                cases ev with
                | start t dg io => simp only [Srv.lifeStep, Option.some.injEq] at hc'; rw [← hc']; exact hi
                | tick t io =>
                  simp only [Srv.lifeStep] at hc'
                  split at hc'
                  · simp only [Option.some.injEq] at hc'
                    rw [← hc']
                    unfold Srv.sendBlock
                    split
                    · exact hi
                    · simp only; split
                      · simp only; omega
                      · exact hi
                  · simp only [Option.some.injEq] at hc'; rw [← hc']; exact hi
                | recv t dg io =>
                  simp only [Srv.lifeStep] at hc'
                  split at hc'
                  · simp only [Option.some.injEq] at hc'; rw [← hc']; exact hi
                  · simp only [Option.some.injEq] at hc'
                    rw [← hc']
                    unfold Srv.handle
                    split
                    · simp only; split
                      · simp only; split <;> omega
                      · exact hi
                    · exact hi
                | check t io =>
                  simp only [Srv.lifeStep] at hc'
                  split at hc'
                  · cases hc'
                  · simp only [Option.some.injEq] at hc'; rw [← hc']; exact hi
                | drop => simp only [Srv.lifeStep] at hc'; cases hc'
              exact this
            · rw [setAt_other he] at hc
              exact ih _ _ hc
          · exact ih _ _ hc
      · split at hc
        · rename_i c0 out hres
          simp only at hc
          by_cases he : e = ep
          · subst he
            rw [setAt_same, Option.some.injEq] at hc
            subst hc
            cases ev with
            | start t dg io =>
              simp only [Srv.lifeStep] at hres
              split at hres
              · rename_i c1 out1 hr1
                simp only [Prod.mk.injEq, Option.some.injEq] at hres
                obtain ⟨rfl, rfl⟩ := hres
                obtain ⟨write, r, used, keys, name, kind, -, -, -, -, -, -, -, g, -⟩ := newConn_ok hr1
                omega
              · simp at hres
            | tick t io => simp [Srv.lifeStep] at hres
            | recv t dg io => simp [Srv.lifeStep] at hres
            | check t io => simp [Srv.lifeStep] at hres
            | drop => simp [Srv.lifeStep] at hres
          · rw [setAt_other he] at hc
            exact ih _ _ hc
        · exact ih _ _ hc

/-- A working download: the client is receiving, and the server's connection is alive and has not finished. -/
structure Downloading (v : Parties S) (late : Option Nat) (file : Bytes) (w : World) (cf : Cfg) (room : Nat) (ep : Ep) (s : RecvSt)
    (since : Nat) (auth : Option Bytes) (c : Conn) (sr : SendSt) : Prop where
  reach : Reach v late w
  cli : w.cli = .down cf room ep s since auth
  live : w.live = some ep
  conn : w.conns ep = some c
  side : c.side = .reader sr
  running : sr.failed = false ∧ sr.finished = false
  inv : ∃ F bound wr seen, DownInv v late F bound wr seen w ∧ F ep = file

/-- What the invariant says then. -/
structure DownView (v : Parties S) (late : Option Nat) (file : Bytes) (w : World) (cf : Cfg) (room : Nat) (ep : Ep) (s : RecvSt)
    (c : Conn) (sr : SendSt) (m : Mapper) (wd : Window) (seen : Nat) : Prop where
  bs : cf.bs = c.opts.payload
  pos : 0 < cf.bs
  cap : c.opts.payload ≤ c.opts.blockSize
  dec : cf.codec.dec = (v.srv.transfer c).codec.dec
  room : room = recvBuffer c.opts.blockSize
  receiver : cf.receiver = .client
  window1 : 1 ≤ c.opts.window
  running : s.finished = false ∧ s.failed = false
  snd : SInv (v.srv.transfer c) file m wd sr
  rcv : RInv cf file seen s
  base : wd.base ≤ s.w.written
  seen : seen ≤ wd.top
  wide : v.job.opts.window ≤ 10000 ∨ nblocks file c.opts.payload ≤ 55535
  window : c.opts.window ≤ v.job.opts.window
  block : 512 ≤ c.opts.blockSize
  datas : ∀ p ∈ w.down, p.ep = ep →
    DataFine (v.srv.transfer c).codec.dec file c.opts.payload wd.top p.mark (p.bytes.take (recvBuffer c.opts.blockSize))

theorem Downloading.view {v : Parties S} {late file} (h : Honest v late) {w cf room ep s since auth c sr}
    (u : Downloading v late file w cf room ep s since auth c sr) : ∃ m wd seen, DownView v late file w cf room ep s c sr m wd seen := by
  obtain ⟨F, bound, wr, seen, hi, rfl⟩ := u.inv
  have hcli := hi.cli
  unfold DownCli at hcli
  rw [u.cli] at hcli
  obtain ⟨hb, c1, hc, hbs, hdec, hroom, hrc, hf0, hx0, hR, rfl⟩ := hcli
  rw [u.conn] at hc; cases hc
  have hco := hi.conn ep c u.conn
  obtain ⟨s0, m, wd, k1, k2, k3, k4, k5⟩ := hco.side
  rw [u.side] at k1; cases k1
  rw [if_pos hb] at k3 k4
  have hpay := payload_471 hco.block
  exact ⟨m, wd, seen, hbs, by rw [hbs]; omega, hpay.2, hdec, hroom, hrc, conn_window h u.reach u.conn, ⟨hf0, hx0⟩, k2, hR, k3, k4,
    window_ok h hco.small hpay.1, hco.window, hco.block, k5⟩


theorem DownView.base_lt {v : Parties S} {late file w cf room ep s since auth c sr m wd seen}
    (u : Downloading v late file w cf room ep s since auth c sr) (q : DownView v late file w cf room ep s c sr m wd seen) :
    wd.base < nblocks file c.opts.payload := by
  have h1 : wd.top ≤ nblocks file c.opts.payload := q.snd.sim.inv.top_le
  have h2 := q.base
  have h3 := q.rcv.seen
  have h4 := q.seen
  have : wd.base ≠ nblocks file c.opts.payload := by
    intro e
    rcases q.snd.done e with h | h
    · rw [u.running.2] at h; cases h
    · rw [u.running.1] at h; cases h
  omega

/-- The server repeats the oldest unconfirmed block, when it is time for it. -/
theorem down_tick {v : Parties S} {late} (h : Honest v late) {ok} (hj : v.job.task = .download ok) {file} (t : Nat)
    {w cf room ep s since auth c sr} (u : Downloading v late file w cf room ep s since auth c sr) {m wd seen}
    (q : DownView v late file w cf room ep s c sr m wd seen) :
    ∃ T c' s' d w', Works v late t w T w' ∧ (T = max t c.lastSent + c.opts.retry * c.mult + 1 ∧ c'.lastSent ≤ T) ∧
      Downloading v late file w' cf room ep s since auth c' s' ∧ c'.opts = c.opts ∧ c'.enc = c.enc ∧
      (⟨ep, d, w'.clock ep⟩ : Pkt) ∈ w'.down ∧ s'.total = sr.total ∧
      d.length ≤ recvBuffer c.opts.blockSize ∧
      (v.srv.transfer c).codec.dec d =
        some (Packet.data (UInt16.ofNat ((wd.base + 1) % 65536)) (block file cf.bs (wd.base + 1))).toBytes := by
  have hbs : 0 < (v.srv.transfer c).bs := by have := q.pos; rw [q.bs] at this; exact this
  have hcap : (v.srv.transfer c).bs ≤ (v.srv.transfer c).cap := q.cap
  obtain ⟨d, hd1, hd2⟩ := tick_sends hbs hcap q.snd u.running.1 q.window1 (q.base_lt u) 0
  have hok := tick_ok hbs hcap q.snd u.running.1 true false .sent (by simp) 0
  obtain ⟨w', g1, g2, g3, -, g4⟩ := send_tick hbs hcap q.snd true false false .sent 0
  obtain ⟨_, -, -, -, hem⟩ := link_tick hbs hcap rfl q.snd true false false .sent 0
  rw [tick_server v.srv c u.running.2 u.running.1] at hd1 hok g1 g4 hem
  obtain ⟨pk, em1, em2⟩ := (hem d hd1).2
  have hlen : d.bytes.length ≤ recvBuffer c.opts.blockSize :=
    enc_length v.srv c q.block (emit_enc em1) (em2.imp id .inr)
  have hfin : (serverSendTick (v.srv.transfer c) sr true false .sent 0).1.finished = false := by
    cases hx : (serverSendTick (v.srv.transfer c) sr true false .sent 0).1.finished with
    | false => rfl
    | true =>
      have e : w'.base = nblocks file c.opts.payload := g1.fin hx
      have := q.base_lt u
      omega
  have hda := g4 d hd1
  unfold DataOk at hda
  rw [hd2] at hda
  let T := max t c.lastSent + c.opts.retry * c.mult + 1
  have hretry : c.retryDue T = true := by simp only [Conn.retryDue, T, decide_eq_true_eq]; omega
  have hact : c.active = true := by simp [Conn.active, u.side, Conn.failed, Conn.finished, u.running.1, u.running.2]
  have hside : (v.srv.sendBlock c T ⟨false, .sent, 0⟩).1.side = .reader (serverSendTick (v.srv.transfer c) sr true false .sent 0).1 := by
    simp only [Srv.sendBlock, u.side, hretry]; rfl
  have hout : (v.srv.sendBlock c T ⟨false, .sent, 0⟩).2.1 = (serverSendTick (v.srv.transfer c) sr true false .sent 0).2.map (·.bytes) := by
    simp only [Srv.sendBlock, u.side, hretry]; rfl
  have hopts : (v.srv.sendBlock c T ⟨false, .sent, 0⟩).1.opts = c.opts := by simp only [Srv.sendBlock, u.side, hretry]; rfl
  have henc : (v.srv.sendBlock c T ⟨false, .sent, 0⟩).1.enc = c.enc := by simp only [Srv.sendBlock, u.side, hretry]; rfl
  have ha : Allowed v late w (.server ep (.tick T ⟨false, .sent, 0⟩)) := trivial
  have hstep := step_live (v := v) u.live u.conn ep (.tick T ⟨false, .sent, 0⟩)
  have hlife : v.srv.lifeStep v.stops (some c) (.tick T ⟨false, .sent, 0⟩) =
      (some (v.srv.sendBlock c T ⟨false, .sent, 0⟩).1, [d.bytes]) := by
    simp only [Srv.lifeStep, hact, ↓reduceIte, hout, hd1, Option.map_some, Option.toList_some]
  rw [hlife] at hstep
  simp only at hstep
  have htot : (serverSendTick (v.srv.transfer c) sr true false .sent 0).1.total = sr.total := by rw [g1.total, g2, q.snd.total]
  have hconn : (v.step w (.server ep (.tick T ⟨false, .sent, 0⟩))).conns ep = some (v.srv.sendBlock c T ⟨false, .sent, 0⟩).1 := by
    rw [hstep]; exact setAt_same _ _ _
  have hlast : (v.srv.sendBlock c T ⟨false, .sent, 0⟩).1.lastSent ≤ T := by
    simp only [Srv.sendBlock, u.side, hretry, ↓reduceIte]
    split
    · exact Nat.le_refl _
    · simp only [T]; omega
  refine ⟨T, _, _, d.bytes, _, .one (e := .server ep (.tick T ⟨false, .sent, 0⟩)) (by simp only [T]; omega) ⟨rfl, rfl, rfl⟩ ⟨ha, trivial⟩,
    ⟨rfl, hlast⟩, ⟨.step _ _ u.reach ha, ?_, ?_, hconn, hside, ⟨hok, hfin⟩, ?_⟩, hopts, henc, ?_, htot, hlen, ?_⟩
  · rw [hstep]; exact u.cli
  · rw [hstep]; exact u.live
  · obtain ⟨F, bound, wr, sn, hi, rfl⟩ := u.inv
    obtain ⟨F', hF, hi'⟩ := down_server h hj hi ep (.tick T ⟨false, .sent, 0⟩) ha
    exact ⟨F', bound, wr, sn, hi', hF ep (by rw [u.conn]; rfl)⟩
  · rw [clock_reader hconn hside, htot, ← clock_reader u.conn u.side, hstep]
    simp
  · rw [q.bs]; exact hda.2.2

/-- An answer of the client which is on its way to the server: it confirms `k` blocks. -/
def Confirmed (v : Parties S) (w : World) (ep : Ep) (c : Conn) (k : Nat) : Prop :=
  ∃ a, (⟨ep, a, w.clock ep⟩ : Pkt) ∈ w.up ∧ (v.srv.transfer c).codec.dec a = some (Packet.ack (UInt16.ofNat (k % 65536))).toBytes

/-- The client takes a block. -/
theorem down_hear {v : Parties S} {late} (h : Honest v late) {ok} (hj : v.job.task = .download ok) {file} {t : Nat}
    {w cf room ep s since auth c sr} (u : Downloading v late file w cf room ep s since auth c sr) (hmax : file.length ≤ cf.max)
    {m wd seen} (q : DownView v late file w cf room ep s c sr m wd seen) {d : Bytes} (hp : (⟨ep, d, w.clock ep⟩ : Pkt) ∈ w.down)
    (hfits : d.length ≤ recvBuffer c.opts.blockSize)
    (hd : cf.codec.dec d = some (Packet.data (UInt16.ofNat ((wd.base + 1) % 65536)) (block file cf.bs (wd.base + 1))).toBytes) :
    ∃ w', Works v late t w t w' ∧ w'.conns = w.conns ∧ w'.live = w.live ∧
      ((w'.cli = .done (.ok (file.length, auth)) file ∧ wd.top = nblocks file c.opts.payload ∧ Confirmed v w' ep c wd.top) ∨
      ∃ s' since', Downloading v late file w' cf room ep s' since' auth c sr ∧
        (wd.base = s.w.written ∧ s'.w.written = s.w.written + 1 ∨
          wd.base ≠ s.w.written ∧ s'.w.written = s.w.written ∧ Confirmed v w' ep c s.w.written)) := by
  have hbl := q.base_lt u
  rw [← q.bs] at hbl
  have h1 := q.base
  have h2 := q.rcv.seen
  have h3 := q.seen
  have h4 : wd.top ≤ nblocks file cf.bs := by rw [q.bs]; exact q.snd.sim.inv.top_le
  have h5 : wd.top - wd.base ≤ c.opts.window := q.snd.sim.inv.room
  have h6 := q.wide
  have h7 := q.window
  have hN : nblocks file c.opts.payload = nblocks file cf.bs := by rw [q.bs]
  obtain ⟨hi, hm⟩ := s.w.mapper.index_fresh seen (wd.base + 1) (nblocks file cf.bs) q.rcv.mapper
    (by omega) (by omega) (by omega) (by omega)
  have hdata := recv_data q.pos q.rcv hd (by omega) (by omega) hi hm true true 0
  have hcase := recv_cases q.pos q.rcv hd (by omega) (by omega) hi true true 0
    (P := fun y => y.1.failed = false ∧
      (wd.base = s.w.written ∧ y.1.w.written = s.w.written + 1 ∧
          (y.1.finished = false ∨ y.1.finished = true ∧ ∃ e, y.2 = some e ∧ e.tag = some y.1.w.written) ∨
        wd.base ≠ s.w.written ∧ y.1.w.written = s.w.written ∧ y.1.finished = false ∧ ∃ e, y.2 = some e ∧ e.tag = some y.1.w.written))
    (by
      rintro w' e (h | h | h) - -
      · cases h
      · cases h
      · omega)
    (by
      intro w' last' e hnext hw he hack
      refine ⟨q.running.2, .inl ⟨by omega, by simp only; omega, ?_⟩⟩
      rcases he with ⟨rfl, -⟩ | ⟨x, rfl, hx, -⟩
      · left
        have := hack rfl (.inr rfl)
        simpa using this
      · simp only
        by_cases hl : wd.base + 1 = nblocks file cf.bs
        · exact .inr ⟨by simp only [hl, decide_true], x, rfl, by rw [hw]; exact hx⟩
        · exact .inl (by simp only [hl, decide_false]))
    (by
      intro w' x hnext hw hx
      exact ⟨q.running.2, .inr ⟨by omega, hw, q.running.1, x, rfl, by simp only; rw [hw]; exact hx⟩⟩)
    (by intro w' _ _ h; cases h)
  have hrole : recvRecv cf s d (if true then .all else .err) true 0 = clientRecv cf s d .all true 0 := by
    unfold recvRecv; rw [q.receiver]; rfl
  rw [hrole] at hdata hcase
  have hal : Allowed v late w (.client (sendInput t false (.dgram ep d))) := by
    refine ⟨.inl rfl, fun src x hx => ?_⟩
    simp only [sendInput, NetIn.dgram.injEq] at hx
    obtain ⟨rfl, rfl⟩ := hx
    rw [u.cli]
    intro _
    exact .inl ⟨_, hp, rfl, rfl, fun l _ => Nat.le_add_right _ _⟩
  have hdel : Delivered w (.client (sendInput t false (.dgram ep d))) := by
    intro src x hx
    simp only [sendInput, NetIn.dgram.injEq] at hx
    obtain ⟨rfl, rfl⟩ := hx
    exact ⟨_, hp, rfl, rfl⟩
  have hworks : Works v late t w t (v.step w (.client (sendInput t false (.dgram ep d)))) :=
    .one (Nat.le_refl _) ⟨rfl, rfl, rfl, rfl, rfl, by simp [sendInput]⟩ ⟨hal, hdel⟩
  have hroom : d.take room = d := List.take_of_length_le (by rw [q.room]; exact hfits)
  have hstep : v.step w (.client (sendInput t false (.dgram ep d))) = { w with
      cli := (v.cli.downStep cf room ep s since auth (sendInput t false (.dgram ep d))).1
      up := (v.cli.downStep cf room ep s since auth (sendInput t false (.dgram ep d))).2.map (fun x => ⟨x.1, x.2, w.clock x.1⟩) ++ w.up
      sent := (v.cli.downStep cf room ep s since auth (sendInput t false (.dgram ep d))).1.confirmed w.sent } := by
    simp only [Parties.step, u.cli, Cli.step]
  generalize hy : clientRecv cf s d .all true 0 = y at hdata hcase
  obtain ⟨s', a⟩ := y
  simp only at hdata hcase
  have hdown : v.cli.downStep cf room ep s since auth (sendInput t false (.dgram ep d)) =
      (if s'.finished then .done (.ok (s'.total, auth)) s'.w.out
       else .down cf room ep s' (if s'.w.written > s.w.written then t else since) auth, (a.map (·.bytes)).toList.map (ep, ·)) := by
    unfold Cli.downStep sendInput
    simp only [hroom, hd, Option.isNone_some, Bool.false_eq_true, ↓reduceIte, ne_eq, not_true_eq_false, hy, hcase.1]
    split <;> rfl
  rw [hdown] at hstep
  have hcl : (v.step w (.client (sendInput t false (.dgram ep d)))).clock ep = w.clock ep := by
    have e : (v.step w (.client (sendInput t false (.dgram ep d)))).conns ep = some c := by rw [hstep]; exact u.conn
    rw [clock_reader e u.side, clock_reader u.conn u.side]
  simp only at hstep
  have answer : ∀ x, a = some x → x.tag = some s'.w.written →
      Confirmed v (v.step w (.client (sendInput t false (.dgram ep d)))) ep c s'.w.written := by
    intro x hx htag
    have hak := hdata.2.2 x hx
    unfold AckOk at hak
    rw [htag] at hak
    refine ⟨x.bytes, ?_, by rw [← q.dec]; exact hak.2⟩
    rw [hcl, hstep, hx]
    simp
  have hinv : ∃ F bound wr sn, DownInv v late F bound wr sn (v.step w (.client (sendInput t false (.dgram ep d)))) ∧ F ep = file := by
    obtain ⟨F, bound, wr, sn, hi, rfl⟩ := u.inv
    obtain ⟨b', wr', sn', hi'⟩ := down_client h hj hi (down_reach_whence h hj u.reach).2 _ hal
    exact ⟨F, b', wr', sn', hi', rfl⟩
  refine ⟨_, hworks, by rw [hstep], by rw [hstep], ?_⟩
  have more : s'.finished = false → Downloading v late file (v.step w (.client (sendInput t false (.dgram ep d)))) cf room ep s'
      (if s'.w.written > s.w.written then t else since) auth c sr := by
    intro hf
    refine ⟨.step _ _ u.reach hal, ?_, u.live, u.conn, u.side, u.running, hinv⟩
    rw [hstep]
    simp only [hf, Bool.false_eq_true, ↓reduceIte]
  rcases hcase.2 with ⟨g1, g2, g3 | ⟨g3, x, g4, g5⟩⟩ | ⟨g1, g2, g3, x, g4, g5⟩
  · exact .inr ⟨s', _, more g3, .inl ⟨g1, g2⟩⟩
  · left
    have e := hdata.1.fin g3
    have hlt : wd.base < wd.top := by
      have hf := q.datas _ hp rfl
      rw [← q.dec, List.take_of_length_le hfits] at hf
      obtain ⟨tt, p, f1, f2, f3, -⟩ := hf _ _ _ hd (decode_data _ _)
      rw [clock_reader u.conn u.side, q.snd.total] at f3
      have hpos := q.pos
      rw [q.bs] at hpos
      have := bytesIn_inj (a := wd.base) (b := p) hpos (by omega) (by omega) f3
      omega
    have htop : wd.top = s'.w.written := by omega
    refine ⟨?_, by rw [htop, e, hN], by rw [htop]; exact answer x g4 g5⟩
    rw [hstep]
    simp only [g3, ↓reduceIte]
    rw [hdata.1.total hcase.1, e, bytesIn_nblocks _ _ _ q.pos (Nat.le_refl _), out_eq_file q.pos hdata.1 e]
  · exact .inr ⟨s', _, more g3, .inr ⟨g1, g2, by rw [← g2]; exact answer x g4 g5⟩⟩

/-- The server hears the answer. -/
theorem down_confirm {v : Parties S} {late} {file} {t : Nat} {w ep c sr m wd} (hl : w.live = some ep) (hconn : w.conns ep = some c)
    (hside : c.side = .reader sr) (hrun : sr.failed = false ∧ sr.finished = false) (hbs : 0 < c.opts.payload)
    (hS : SInv (v.srv.transfer c) file m wd sr) {k : Nat} (hk : wd.base ≤ k ∧ k ≤ wd.top)
    (hwide : v.job.opts.window ≤ 10000 ∨ nblocks file c.opts.payload ≤ 55535) (hwin : c.opts.window ≤ v.job.opts.window)
    (hans : Confirmed v w ep c k) :
    ∃ e w' c' sr' m' wd', w' = v.step w (.server ep e) ∧ Allowed v late w (.server ep e) ∧ Works v late t w t w' ∧ w'.cli = w.cli ∧
      w'.live = w.live ∧ w'.conns ep = some c' ∧ (c'.opts = c.opts ∧ c'.lastSent = c.lastSent) ∧
      c'.enc = c.enc ∧ c'.side = .reader sr' ∧ sr'.failed = false ∧ SInv (v.srv.transfer c) file m' wd' sr' ∧ wd'.base = k := by
  obtain ⟨a, ha1, ha2⟩ := hans
  have h4 : wd.top ≤ nblocks file c.opts.payload := hS.sim.inv.top_le
  have h5 : wd.top - wd.base ≤ c.opts.window := hS.sim.inv.room
  obtain ⟨hi, hm⟩ := m.index_fresh wd.base k (nblocks file c.opts.payload) hS.mapper (by omega) (by omega) (by omega) (by omega)
  obtain ⟨wd', k1, k2, k3, k4⟩ := send_recv_ack hbs hS ha2 (by omega) hi hm
  have hrole : sendRecv (v.srv.transfer c) sr a = serverSendRecv (v.srv.transfer c) sr a := rfl
  rw [hrole] at k1 k4
  have ha : Allowed v late w (.server ep (.recv t a ⟨.all, true, 0⟩)) := by
    intro l hl'
    rw [hl, Option.some.injEq] at hl'
    subst hl'
    exact ⟨.inl ⟨_, ha1, rfl, rfl, fun l _ => Nat.le_add_right _ _⟩, .inl rfl⟩
  have hdel : Delivered w (.server ep (.recv t a ⟨.all, true, 0⟩)) := by
    intro l hl'
    rw [hl, Option.some.injEq] at hl'
    subst hl'
    exact ⟨_, ha1, rfl, rfl⟩
  have hdeaf : c.deaf = false := by simp only [Conn.deaf, hside, hrun.2]
  have hstep := step_live (v := v) hl hconn ep (.recv t a ⟨.all, true, 0⟩)
  have hlife : v.srv.lifeStep v.stops (some c) (.recv t a ⟨.all, true, 0⟩) =
      (some (v.srv.handle c t a ⟨.all, true, 0⟩).1, (v.srv.handle c t a ⟨.all, true, 0⟩).2.toList) := by
    simp only [Srv.lifeStep, hdeaf, Bool.and_false, Bool.false_eq_true, ↓reduceIte]
  rw [hlife] at hstep
  simp only at hstep
  refine ⟨_, _, (v.srv.handle c t a ⟨.all, true, 0⟩).1, serverSendRecv (v.srv.transfer c) sr a, _, wd', rfl, ha,
    .one (e := .server ep (.recv t a ⟨.all, true, 0⟩)) (Nat.le_refl _) ⟨rfl, rfl, rfl⟩ ⟨ha, hdel⟩,
    by rw [hstep], by rw [hstep], by rw [hstep]; exact setAt_same _ _ _, ?_, ?_, ?_, by rw [k4]; exact hrun.1, k1, by rw [k2]; omega⟩
  · simp only [Srv.handle, hside]; split <;> exact ⟨rfl, rfl⟩
  · simp only [Srv.handle, hside]; split <;> rfl
  · simp only [Srv.handle, hside]; split <;> rfl

/-- The whole file has arrived, and both sides know it. -/
def DownDone (w : World) (ep : Ep) (auth : Option Bytes) (file : Bytes) : Prop :=
  ∃ c s, w.cli = .done (.ok (file.length, auth)) file ∧ w.conns ep = some c ∧ c.side = .reader s ∧ s.finished = true ∧ s.failed = false ∧
    s.total = file.length

/-- One more block is stored, or the download is complete. -/
theorem down_more {v : Parties S} {late} (h : Honest v late) {ok} (hj : v.job.task = .download ok) {file} (t : Nat)
    {w cf room ep s since auth c sr} (u : Downloading v late file w cf room ep s since auth c sr) (hmax : file.length ≤ cf.max) :
    ∃ T w', Works v late t w T w' ∧ T ≤ max t c.lastSent + 2 * (255 * c.opts.retry + 1) ∧ (DownDone w' ep auth file ∨
      ∃ s' since' c' sr', Downloading v late file w' cf room ep s' since' auth c' sr' ∧ (c'.lastSent ≤ T ∧ c'.opts = c.opts) ∧
        s'.w.written = s.w.written + 1) := by
  -- a turn of the server, and what the client makes of it
  have turn : ∀ (t : Nat) {w s since c sr}, Downloading v late file w cf room ep s since auth c sr →
      ∃ T w', Works v late t w T w' ∧ T ≤ max t c.lastSent + (255 * c.opts.retry + 1) ∧ (DownDone w' ep auth file ∨
      ∃ s' since' c' sr', Downloading v late file w' cf room ep s' since' auth c' sr' ∧ (c'.lastSent ≤ T ∧ c'.opts = c.opts) ∧
        (s'.w.written = s.w.written + 1 ∨ sr.total ≠ bytesIn file cf.bs s.w.written ∧ s'.w.written = s.w.written ∧
          sr'.total = bytesIn file cf.bs s.w.written)) := by
    intro t w s since c sr u
    obtain ⟨m, wd, seen, q⟩ := u.view h
    obtain ⟨T, c1, sr1, d, w1, x1, ⟨hT, hlast⟩, u1, o1, e1, p1, t1, l1, d1⟩ := down_tick h hj t u q
    have hT : T ≤ max t c.lastSent + (255 * c.opts.retry + 1) := by
      have := Nat.mul_le_mul_left c.opts.retry (conn_mult u.reach u.conn).2
      omega
    obtain ⟨m1, wd1, seen1, q1⟩ := u1.view h
    have hb : wd1.base = wd.base := by
      have a1 := q1.base_lt u1
      have a2 := q.base_lt u
      have a3 := q1.snd.total
      have a4 := q.snd.total
      have a5 : (v.srv.transfer c1).bs = c.opts.payload := by show c1.opts.payload = _; rw [o1]
      rw [a5] at a3
      rw [o1] at a1
      have hp := q.pos
      rw [q.bs] at hp
      exact bytesIn_inj hp a1 a2 (by rw [← a3, t1, a4]; rfl)
    rw [← q.dec, ← hb] at d1
    obtain ⟨w2, x2, ec, el, hcase⟩ := down_hear (t := T) h hj u1 hmax q1 p1 (by rw [o1]; exact l1) d1
    rcases hcase with ⟨g1, g2, g3⟩ | ⟨s', since', u2, g⟩
    · have hpos : 0 < c1.opts.payload := by have := q1.pos; rw [q1.bs] at this; exact this
      obtain ⟨e, w3, c3, sr3, m3, wd3, -, -, x3, j1, j2, j3, j4, j5, j6, j7, j8, j9⟩ := down_confirm (t := T) (v := v) (late := late)
        (by rw [el]; exact u1.live) (by rw [ec]; exact u1.conn) u1.side u1.running hpos q1.snd
        (k := wd1.top) ⟨Nat.le_trans q1.snd.sim.inv.base_cur q1.snd.sim.inv.cur_top, Nat.le_refl _⟩ q1.wide q1.window g3
      refine ⟨T, w3, x1.trans (x2.trans x3), hT, .inl ⟨c3, sr3, by rw [j1]; exact g1, j3, j6, ?_, j7, ?_⟩⟩
      · rcases j8.done (j9.trans g2) with hx | hx
        · exact hx
        · rw [j7] at hx; cases hx
      · rw [j8.total, j9, g2]
        exact bytesIn_nblocks _ _ _ hpos (Nat.le_refl _)
    · rcases g with ⟨-, g2⟩ | ⟨g1, g2, g3⟩
      · exact ⟨T, w2, x1.trans x2, hT, .inr ⟨s', since', c1, sr1, u2, ⟨hlast, o1⟩, .inl g2⟩⟩
      · have hpos : 0 < c1.opts.payload := by have := q1.pos; rw [q1.bs] at this; exact this
        have k1 := q1.rcv.seen
        have k2 := q1.seen
        obtain ⟨e, w3, c3, sr3, m3, wd3, rfl, ha3, x3, j1, j2, j3, j4, j5, j6, j7, j8, j9⟩ := down_confirm (t := T) (v := v) (late := late)
          (by rw [el]; exact u1.live) (by rw [ec]; exact u1.conn) u1.side u1.running hpos q1.snd
          (k := s.w.written) ⟨q1.base, by omega⟩ q1.wide q1.window g3
        have hne : s.w.written ≠ nblocks file c1.opts.payload := by
          intro e
          rcases q1.rcv.done (by rw [q1.bs]; exact e) with hx | hx
          · rw [q1.running.1] at hx; cases hx
          · rw [q1.running.2] at hx; cases hx
        have hnf : sr3.finished = false := by
          cases hx : sr3.finished with
          | false => rfl
          | true => exact absurd (j9.symm.trans (j8.fin hx)) hne
        have hlt : s.w.written < nblocks file c1.opts.payload := by
          have : wd1.top ≤ nblocks file c1.opts.payload := q1.snd.sim.inv.top_le
          omega
        have hbt : sr.total ≠ bytesIn file cf.bs s.w.written := by
          rw [← t1, q1.snd.total]
          intro e
          rw [q1.bs] at e
          exact g1 (bytesIn_inj hpos (q1.base_lt u1) hlt e)
        refine ⟨T, _, x1.trans (x2.trans x3), hT, .inr ⟨s', since', c3, sr3, ⟨.step _ _ u2.reach ha3, ?_, ?_, j3, j6, ⟨j7, hnf⟩, ?_⟩,
          ⟨by rw [j4.2]; exact hlast, by rw [j4.1, o1]⟩, .inr ⟨hbt, g2, ?_⟩⟩⟩
        · rw [j1]; exact u2.cli
        · rw [j2]; exact u2.live
        · obtain ⟨F, bound, wr, sn, hi, rfl⟩ := u2.inv
          obtain ⟨F', hF, hi'⟩ := down_server h hj hi ep e ha3
          exact ⟨F', bound, wr, sn, hi', hF ep (by rw [u2.conn]; rfl)⟩
        · rw [j8.total, j9, q1.bs]; rfl
  obtain ⟨T, w1, x1, hT, hres⟩ := turn t u
  rcases hres with hres | ⟨s', since', c', sr', u', hb, hn | ⟨-, hn1, hn2⟩⟩
  · exact ⟨T, w1, x1, by omega, .inl hres⟩
  · exact ⟨T, w1, x1, by omega, .inr ⟨s', since', c', sr', u', hb, hn⟩⟩
  · obtain ⟨T2, w2, x2, hT2, hres⟩ := turn T u'
    rw [hb.2] at hT2
    rcases hres with hres | ⟨s2, since2, c2, sr2, u2, hb2, hn | ⟨h1, -⟩⟩
    · exact ⟨T2, w2, x1.trans x2, by omega, .inl hres⟩
    · exact ⟨T2, w2, x1.trans x2, by omega, .inr ⟨s2, since2, c2, sr2, u2, ⟨hb2.1, by rw [hb2.2, hb.2]⟩, by rw [hn, hn1]⟩⟩
    · exact absurd (by rw [hn1]; exact hn2) h1

/-- **C74**, with a bound on the time: a completing continuation of `c74_download` exists which takes, from the last datagram with data or from now, at most
two times the longest wait of the server (255 times its retry time) for each block which the client still misses. From every state which can be reached, in which the client is receiving a file which is not larger than it
allows, and the server's connection with it is alive and has neither failed nor finished: the download can be completed by events at the
present moment or later, without a fault of a file or a socket, which deliver only datagrams that were sent. The client then reports
success with the number of bytes, and has stored a file which the server opened for it; and the server regards the transfer as successful. -/
theorem c74_download_time {v : Parties S} {late} (h : Honest v late) {ok} (hj : v.job.task = .download ok) {w} (hr : Reach v late w)
    {cf room ep s since auth c sr} (hc : w.cli = .down cf room ep s since auth) (hl : w.live = some ep) (hconn : w.conns ep = some c)
    (hside : c.side = .reader sr) (hok : sr.failed = false ∧ sr.finished = false)
    (hmax : ∀ file, Served v w ep file → file.length ≤ v.cli.cfg.maxFileSize) (t : Nat) :
    ∃ file t' w' c' sr', Served v w ep file ∧ Works v late t w t' w' ∧
      t' ≤ max t c.lastSent + (nblocks file c.opts.payload - s.w.written) * (2 * (255 * c.opts.retry + 1)) ∧ w'.cli = .done (.ok (file.length, auth)) file ∧
      w'.conns ep = some c' ∧ c'.side = .reader sr' ∧ sr'.finished = true ∧ sr'.failed = false ∧ sr'.total = file.length := by
  obtain ⟨F, bound, wr, seen, hi⟩ := down_reach h hj hr
  have hserved : Served v w ep (F ep) := (hi.conn ep c hconn).opened
  have hm : (F ep).length ≤ cf.max := by rw [down_max hr hc]; exact hmax _ hserved
  have key : ∀ (k t : Nat) {w s since c sr}, Downloading v late (F ep) w cf room ep s since auth c sr →
      nblocks (F ep) cf.bs - s.w.written = k → ∃ t' w', Works v late t w t' w' ∧
        t' ≤ max t c.lastSent + k * (2 * (255 * c.opts.retry + 1)) ∧ DownDone w' ep auth (F ep) := by
    intro k
    induction k with
    | zero =>
      intro t w s since c sr u hk
      obtain ⟨m, wd, seen, q⟩ := u.view h
      have h1 := q.rcv.seen
      have h2 := q.seen
      have h3 : wd.top ≤ nblocks (F ep) cf.bs := by rw [q.bs]; exact q.snd.sim.inv.top_le
      rcases q.rcv.done (show s.w.written = nblocks (F ep) cf.bs by omega) with hx | hx
      · rw [q.running.1] at hx; cases hx
      · rw [q.running.2] at hx; cases hx
    | succ k ih =>
      intro t w s since c sr u hk
      obtain ⟨T, w1, x1, hT, hres⟩ := down_more h hj t u hm
      have hs : (k + 1) * (2 * (255 * c.opts.retry + 1)) = k * (2 * (255 * c.opts.retry + 1)) + 2 * (255 * c.opts.retry + 1) := Nat.succ_mul _ _
      rcases hres with hres | ⟨s', since', c', sr', u', hb, hn⟩
      · exact ⟨T, w1, x1, by omega, hres⟩
      · obtain ⟨T2, w2, x2, hT2, hd⟩ := ih T u' (by omega)
        rw [hb.2] at hT2
        have := hb.1
        exact ⟨T2, w2, x1.trans x2, by omega, hd⟩
  have u : Downloading v late (F ep) w cf room ep s since auth c sr := ⟨hr, hc, hl, hconn, hside, hok, F, bound, wr, seen, hi, rfl⟩
  obtain ⟨t', w', x, ht', c', sr', g1, g2, g3, g4, g5, g6⟩ := key _ t u rfl
  obtain ⟨m, wd, seen', q⟩ := u.view h
  exact ⟨F ep, t', w', c', sr', hserved, x, by rw [← q.bs]; exact ht', g1, g2, g3, g4, g5, g6⟩

/-- **C74.** Downloads: from every state which can be reached, in which the client is receiving a file which is not larger than it
allows, and the server's connection with it is alive and has neither failed nor finished: the download can be completed by events at the
present moment or later, without a fault of a file or a socket, which deliver only datagrams that were sent. The client then reports
success with the number of bytes, and has stored a file which the server opened for it; and the server regards the transfer as successful. -/
theorem c74_download {v : Parties S} {late} (h : Honest v late) {ok} (hj : v.job.task = .download ok) {w} (hr : Reach v late w)
    {cf room ep s since auth c sr} (hc : w.cli = .down cf room ep s since auth) (hl : w.live = some ep) (hconn : w.conns ep = some c)
    (hside : c.side = .reader sr) (hok : sr.failed = false ∧ sr.finished = false)
    (hmax : ∀ file, Served v w ep file → file.length ≤ v.cli.cfg.maxFileSize) (t : Nat) :
    ∃ file t' w' c' sr', Served v w ep file ∧ Works v late t w t' w' ∧ w'.cli = .done (.ok (file.length, auth)) file ∧
      w'.conns ep = some c' ∧ c'.side = .reader sr' ∧ sr'.finished = true ∧ sr'.failed = false ∧ sr'.total = file.length := by
  obtain ⟨file, t', w', c', sr', g1, g2, -, g3⟩ := c74_download_time h hj hr hc hl hconn hside hok hmax t
  exact ⟨file, t', w', c', sr', g1, g2, g3⟩

end Tftp

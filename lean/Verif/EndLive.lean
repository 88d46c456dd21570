import Verif.EndDown
import Verif.TransferLive
/-
C74: no reachable state of a whole transfer is a dead end. From every state which the client, the server and the network can reach, in
which the client is transferring and the server still serves it, the transfer can be completed without any fault: this file proves it
for uploads, EndLiveDown.lean for downloads.
-/
namespace Tftp
open Spec

variable {S : SigScheme}

/-! ### Specification -/

/-- An event at time `t` in which nothing goes wrong: files and sockets work; nobody gives up or is dropped. -/
def Spec.Faultless (t : Nat) : WEv → Prop
  | .client i => i.t = t ∧ i.sendOk = true ∧ i.fail = false ∧ i.net = .sent ∧ i.file = .all ∧ i.recv ≠ .error
  | .server _ (.recv t' _ io) => t' = t ∧ io.file = .all ∧ io.sendOk = true
  | .server _ (.tick t' io) => t' = t ∧ io.fail = false ∧ io.net = .sent
  | .server _ _ => False

/-- The datagram which arrives in the event was sent. -/
def Spec.Delivered (w : World) : WEv → Prop
  | .client i => ∀ src d, i.recv = .dgram src d → ∃ p ∈ w.down, p.ep = src ∧ p.bytes = d
  | .server _ (.recv _ dg _) => ∀ l, w.live = some l → ∃ p ∈ w.up, p.ep = l ∧ p.bytes = dg
  | .server _ _ => True

/-- `w'` can be reached from `w` by such events, which deliver only datagrams that were sent, at times which do not go back, from `t`
to `t'`. -/
inductive Spec.Works {S} (v : Parties S) (late : Option Nat) : Nat → World → Nat → World → Prop
  | refl (t : Nat) (w : World) : Spec.Works v late t w t w
  | step (t : Nat) (w : World) (t1 : Nat) (e : WEv) (t' : Nat) (w' : World) : t ≤ t1 → Spec.Faultless t1 e → Spec.Allowed v late w e ∧ Spec.Delivered w e →
      Spec.Works v late t1 (v.step w e) t' w' → Spec.Works v late t w t' w'

theorem Spec.Works.trans {v : Parties S} {late t w t' w' t'' w''} (h : Works v late t w t' w') (h' : Works v late t' w' t'' w'') :
    Works v late t w t'' w'' := by
  induction h with
  | refl => exact h'
  | step t w t1 e t2 w1 h0 h1 h2 _ ih => exact .step t w t1 e _ _ h0 h1 h2 (ih h')

theorem Spec.Works.one {v : Parties S} {late t t' w e} (h0 : t ≤ t') (h1 : Faultless t' e) (h2 : Allowed v late w e ∧ Delivered w e) :
    Works v late t w t' (v.step w e) :=
  .step t w t' e _ _ h0 h1 h2 (.refl _ _)

theorem Spec.Works.reach {v : Parties S} {late t w t' w'} (h : Works v late t w t' w') (hr : Reach v late w) : Reach v late w' := by
  induction h with
  | refl => exact hr
  | step t w t1 e t2 w1 _ _ h2 _ ih => exact ih (.step w e hr h2.1)

theorem Spec.Works.time {v : Parties S} {late t w t' w'} (h : Works v late t w t' w') : t ≤ t' := by
  induction h with
  | refl => exact Nat.le_refl _
  | step t w t1 e t2 w1 h0 _ _ _ ih => omega

/-! ### The window of a client is not empty -/

theorem accepted_window {v : Cli S} {j : Job} {ep ack o rk first i cf room ep' s since auth}
    (h : (v.accepted j ep ack o rk first i).1 = .up cf room ep' s since auth) : cf.W = o.window := by
  unfold Cli.accepted at h
  simp only at h
  generalize (if ack = true then _ else _ : Option (List Bytes)) = hs at h
  cases ht : j.task with
  | upload n file =>
    rw [ht] at h
    cases hs with
    | none => cases h
    | some out =>
      simp only [CliSt.up.injEq] at h
      rw [← h.1]; rfl
  | download ok =>
    rw [ht] at h
    simp only at h
    repeat' split at h
    all_goals cases h

theorem reply_window {v : Cli S} {write : Bool} {o : Opts} {used : Exts} {initial : Bool} {b : Bytes} {ack o' rk first} (ho : 1 ≤ o.window)
    (h : v.reply write o used initial b = .accept ack o' rk first) : 1 ≤ o'.window := by
  unfold Cli.reply at h
  split at h
  · split at h
    · rename_i o1 rk1 out hc
      simp only [Reply.accept.injEq] at h
      obtain ⟨-, rfl, -⟩ := h
      have := (c17_client_limits S _ _ _ _ _ _ _ _ hc).2.2.1
      omega
    · cases h
  · split at h
    · simp only [Reply.accept.injEq] at h
      obtain ⟨-, rfl, -⟩ := h
      exact ho
    · cases h
  · split at h
    · cases h
    · simp only [Reply.accept.injEq] at h
      obtain ⟨-, rfl, -⟩ := h
      exact ho
  · split at h <;> cases h
  · cases h

theorem requestOpts_window (v : Cli S) (j : Job) : (v.requestOpts j).window = j.opts.window := by
  have : (v.initialSock j.opts).2.window = j.opts.window := by
    unfold Cli.initialSock
    repeat' split
    all_goals rfl
  unfold Cli.requestOpts
  simp only
  split
  · split <;> exact this
  · exact this

theorem up_window {v : Parties S} {late} (h : Honest v late) {w} (hr : Reach v late w) {cf room ep s since auth}
    (hc : w.cli = .up cf room ep s since auth) : 1 ≤ cf.W := by
  suffices ∀ cf room ep s since auth, w.cli = .up cf room ep s since auth → 1 ≤ cf.W from this _ _ _ _ _ _ hc
  clear hc
  induction hr with
  | init t => intro cf room ep s since auth hc; cases hc
  | step w e _ _ ih =>
    intro cf room ep s since auth hc
    cases e with
    | server ep e =>
      have : (v.step w (.server ep e)).cli = w.cli := by
        simp only [Parties.step]
        repeat' split
        all_goals rfl
      rw [this] at hc
      exact ih _ _ _ _ _ _ hc
    | client i =>
      have hc : (v.cli.step v.job w.cli i).1 = .up cf room ep s since auth := hc
      cases hw : w.cli with
      | done r f => rw [hw] at hc; cases hc
      | down cf1 room1 ep1 s1 since1 auth1 =>
        rw [hw] at hc
        simp only [Cli.step, Cli.downStep] at hc
        repeat' split at hc
        all_goals cases hc
      | up cf1 room1 ep1 s1 since1 auth1 =>
        have h1 := ih _ _ _ _ _ _ hw
        rw [hw] at hc
        simp only [Cli.step, Cli.upStep] at hc
        repeat' split at hc
        all_goals first | cases hc | skip
        all_goals exact h1
      | query q =>
        rw [hw] at hc
        simp only [Cli.step, Cli.queryStep] at hc
        split at hc
        · cases hc
        · split at hc
          · cases hc
          · split at hc <;> cases hc
          · split at hc
            · cases hc
            · split at hc
              · cases hc
              · split at hc
                · cases hc
                · split at hc
                  · cases hc
                  · cases hc
                  · rename_i hrep
                    simp only at hc
                    rw [accepted_window hc]
                    exact reply_window (by rw [requestOpts_window]; exact h.window.1) hrep

/-! ### Uploads -/

/-- A working upload: the client is sending, and the server's connection is alive and has not finished. -/
structure Uploading (v : Parties S) (late : Option Nat) (t : Nat) (w : World) (cf : Cfg) (room : Nat) (ep : Ep) (s : SendSt)
    (since : Nat) (auth : Option Bytes) (c : Conn) (r : RecvSt) : Prop where
  reach : Reach v late w
  cli : w.cli = .up cf room ep s since auth
  live : w.live = some ep
  conn : w.conns ep = some c
  side : c.side = .writer r
  healthy : r.failed = false
  time : t - since ≤ v.cli.cfg.requestTimeout

/-- What the invariant says then. -/
structure UpView (v : Parties S) (late : Option Nat) (file : Bytes) (w : World) (cf : Cfg) (room : Nat) (ep : Ep) (s : SendSt)
    (c : Conn) (r : RecvSt) (m : Mapper) (wd : Window) (seen : Nat) : Prop where
  small : late = none → file.length ≤ 26000000
  bs : cf.bs = c.opts.payload
  pos : 0 < cf.bs
  pay : 471 ≤ c.opts.payload
  block : 512 ≤ c.opts.blockSize
  dec : cf.codec.dec = (v.srv.transfer c).codec.dec
  room : room = recvBuffer c.opts.blockSize
  sender : cf.sender = .client
  window : cf.W ≤ v.job.opts.window
  window1 : 1 ≤ cf.W
  cap : cf.bs ≤ cf.cap
  running : s.finished = false ∧ s.failed = false
  snd : SInv cf file m wd s
  rcv : RInv (v.srv.transfer c) file seen r
  base : wd.base ≤ r.w.written
  seen : seen ≤ wd.top
  top : wd.top ≤ nblocks file c.opts.payload
  span : wd.top - wd.base ≤ v.job.opts.window
  clock : w.clock ep = bytesIn file c.opts.payload wd.base
  wide : v.job.opts.window ≤ 10000 ∨ nblocks file c.opts.payload ≤ 55535

theorem Uploading.view {v : Parties S} {late} (h : Honest v late) {n file} (hj : v.job.task = .upload n file) {t w cf room ep s since auth c r}
    (u : Uploading v late t w cf room ep s since auth c r) : ∃ m wd seen, UpView v late file w cf room ep s c r m wd seen := by
  have hfile : late = none → file.length ≤ 26000000 := by
    have := h.task
    rw [hj] at this
    exact this.2
  obtain ⟨bound, base, top, hi⟩ := up_reach h hj u.reach
  have hcli := hi.cli
  unfold UpCli at hcli
  rw [u.cli] at hcli
  obtain ⟨hb, c1, hc, hbs, hdec, hroom, hsd, hW, hcap, hf0, hx0, m, wd, hS, rfl, rfl⟩ := hcli
  rw [u.conn] at hc; cases hc
  obtain ⟨c2, hc2, t1, t2, t3⟩ := hi.tied ep hb
  rw [u.conn] at hc2; cases hc2
  obtain ⟨ws, hws, hclock⟩ := hi.writer u.conn
  have hco := hi.conn ep c u.conn
  obtain ⟨s0, seen, k1, k2, k3, k4, k5⟩ := hco.side
  rw [u.side] at k1; cases k1
  rw [if_pos hb] at k3 k4
  have hpay := payload_471 hco.block
  exact ⟨m, wd, seen, hfile, hbs, by rw [hbs]; omega, hpay.1, hco.block, hdec, hroom, hsd, hW, up_window h u.reach u.cli, hcap,
    ⟨hf0, hx0⟩, hS, k2, k3, k4, t2, t3, by rw [hclock]; exact t1, window_ok h hfile hpay.1⟩

/-- The file is complete at the server, if the client has every block confirmed; otherwise there is a next block. -/
theorem UpView.base_lt {v : Parties S} {late file w cf room ep s c r m wd seen} (u : UpView v late file w cf room ep s c r m wd seen) :
    wd.base < nblocks file cf.bs := by
  have h1 := u.snd.sim.inv.top_le
  have h2 := u.base
  have h3 := u.rcv.seen
  have h4 := u.seen
  have : wd.base ≠ nblocks file cf.bs := by
    intro e
    rcases u.snd.done e with h | h
    · rw [u.running.1] at h; cases h
    · rw [u.running.2] at h; cases h
  omega

/-- An iteration of the client in which the retry interval is over and nothing is received. -/
def sendInput (t : Nat) (retry : Bool) (recv : NetIn) : CliIn := ⟨t, recv, true, 0, 0, retry, false, false, .sent, .all⟩

/-- The client repeats the oldest unconfirmed block. -/
theorem up_send {v : Parties S} {late} {file} {t w cf room ep s since auth c r}
    (u : Uploading v late t w cf room ep s since auth c r) {m wd seen} (q : UpView v late file w cf room ep s c r m wd seen) :
    ∃ s' d, Uploading v late t (v.step w (.client (sendInput t true .wouldBlock))) cf room ep s' since auth c r ∧
      Works v late t w t (v.step w (.client (sendInput t true .wouldBlock))) ∧
      (⟨ep, d, w.clock ep⟩ : Pkt) ∈ (v.step w (.client (sendInput t true .wouldBlock))).up ∧
      (v.step w (.client (sendInput t true .wouldBlock))).clock ep = w.clock ep ∧
      (v.srv.transfer c).codec.dec d =
        some (Packet.data (UInt16.ofNat ((wd.base + 1) % 65536)) (block file cf.bs (wd.base + 1))).toBytes := by
  obtain ⟨d, hd1, hd2⟩ := tick_sends q.pos q.cap q.snd q.running.2 q.window1 q.base_lt 0
  have hok := tick_ok q.pos q.cap q.snd q.running.2 true false .sent (by simp) 0
  obtain ⟨w', g1, g2, g3, g4⟩ := send_tick q.pos q.cap q.snd true false false .sent 0
  have hfin := tick_finished cf s true false false .sent 0
  rw [tick_client q.sender q.running.1 q.running.2] at hd1 hok g1 g4
  have hda := g4.2 d hd1
  unfold DataOk at hda
  rw [hd2] at hda
  have hup : v.cli.upStep cf room ep s since auth (sendInput t true .wouldBlock) =
      (.up cf room ep (clientSendTick cf s true false false .sent 0).1 since auth, [(ep, d.bytes)]) := by
    unfold Cli.upStep sendInput
    simp only [hok, Bool.false_eq_true, ↓reduceIte, hd1, Option.map_some, Option.toList_some, List.map_cons, List.map_nil]
    rw [if_neg (by have := u.time; omega)]
  have hstep : v.step w (.client (sendInput t true .wouldBlock)) = { w with
      cli := .up cf room ep (clientSendTick cf s true false false .sent 0).1 since auth
      up := ⟨ep, d.bytes, w.clock ep⟩ :: w.up
      sent := (clientSendTick cf s true false false .sent 0).1.total } := by
    simp only [Parties.step, u.cli, Cli.step, hup, List.map_cons, List.map_nil, List.singleton_append, CliSt.confirmed]
  have ha : Allowed v late w (.client (sendInput t true .wouldBlock)) := ⟨.inl rfl, fun _ _ hx => nomatch hx⟩
  refine ⟨(clientSendTick cf s true false false .sent 0).1, d.bytes, ⟨.step _ _ u.reach ha, ?_, ?_, ?_, u.side, u.healthy, u.time⟩,
    .one (Nat.le_refl _) ⟨rfl, rfl, rfl, rfl, rfl, by simp [sendInput]⟩ ⟨ha, fun _ _ hx => nomatch hx⟩, ?_, ?_, ?_⟩
  · rw [hstep]
  · rw [hstep]; exact u.live
  · rw [hstep]; exact u.conn
  · rw [hstep]; simp
  · rw [hstep]
    have e : w.clock ep = w.sent := by simp only [World.clock, u.conn, World.clockOf, u.side]
    simp only [World.clock, u.conn, World.clockOf, u.side]
    rw [g1.total, g2, q.bs, ← q.clock, e]
  · rw [← q.dec]; exact hda.2.2

/-- An answer of the server which is on its way to the client: it confirms `k` blocks. -/
def Answered (v : Parties S) (w : World) (ep : Ep) (c : Conn) (k : Nat) : Prop :=
  ∃ a, (⟨ep, a, w.clock ep⟩ : Pkt) ∈ w.down ∧ (v.srv.transfer c).codec.dec a = some (Packet.ack (UInt16.ofNat (k % 65536))).toBytes ∧
    a.length ≤ recvBuffer c.opts.blockSize

/-- What the server's receiving side sends are confirmations and errors. -/
theorem serverRecv_emit {c : Cfg} {s : RecvSt} {dg : Bytes} {io : WriteIo} {ok : Bool} {n : Nat} {d : Dgram}
    (h : (serverRecv c s dg io ok n).2 = some d) : ∃ p, c.emit n d.tag p = some d ∧ ((∃ b, p = .ack b) ∨ ∃ e, p = .error e []) := by
  have tag : ∀ {t p}, c.emit n t p = some d → c.emit n d.tag p = some d := by
    intro t p he
    have e := he
    unfold Cfg.emit at e
    simp only [Option.map_eq_some_iff] at e
    obtain ⟨x, -, rfl⟩ := e
    exact he
  have cond : ∀ {b : Bool} {t p}, (if b then c.emit n t p else none) = some d → c.emit n d.tag p = some d := by
    intro b t p he
    cases b with
    | true => exact tag he
    | false => cases he
  unfold serverRecv at h
  split at h
  · cases h
  · split at h
    · simp only at h
      split at h
      · exact ⟨_, cond h, .inr ⟨_, rfl⟩⟩
      · split at h
        · split at h
          · exact ⟨_, cond h, .inr ⟨_, rfl⟩⟩
          · exact ⟨_, cond h, .inl ⟨_, rfl⟩⟩
        · rw [if_neg (by simp)] at h
          exact ⟨_, cond h, .inl ⟨_, rfl⟩⟩
    · cases h
    · cases h

/-- The server takes a block. -/
theorem up_store {v : Parties S} {late} {file} {t w cf room ep s since auth c r}
    (u : Uploading v late t w cf room ep s since auth c r) (hrun : r.finished = false) (hmax : file.length ≤ (v.srv.transfer c).max)
    {w0 s0 m wd seen} (q : UpView v late file w0 cf room ep s0 c r m wd seen) {d : Bytes} (hp : (⟨ep, d, w.clock ep⟩ : Pkt) ∈ w.up)
    (hd : (v.srv.transfer c).codec.dec d =
      some (Packet.data (UInt16.ofNat ((wd.base + 1) % 65536)) (block file cf.bs (wd.base + 1))).toBytes) :
    ∃ c' r' w', Works v late t w t w' ∧ Uploading v late t w' cf room ep s since auth c' r' ∧ c'.opts = c.opts ∧ c'.enc = c.enc ∧
      (wd.base = r.w.written ∧ r'.w.written = r.w.written + 1 ∧ (r'.finished = false ∨ Answered v w' ep c' r'.w.written) ∨
        wd.base ≠ r.w.written ∧ r'.w.written = r.w.written ∧ r'.finished = false ∧ Answered v w' ep c' r'.w.written) := by
  have hbl := q.base_lt
  have hbs : 0 < (v.srv.transfer c).bs := by have := q.pos; rw [q.bs] at this; exact this
  have hN : nblocks file cf.bs = nblocks file (v.srv.transfer c).bs := by rw [q.bs]; rfl
  rw [q.bs] at hd
  have hd : (v.srv.transfer c).codec.dec d =
      some (Packet.data (UInt16.ofNat ((wd.base + 1) % 65536)) (block file (v.srv.transfer c).bs (wd.base + 1))).toBytes := hd
  have h1 := q.base
  have h2 := q.rcv.seen
  have h3 := q.seen
  have h4 := q.top
  have h5 := q.span
  have h6 := q.wide
  have hN' : nblocks file c.opts.payload = nblocks file (v.srv.transfer c).bs := rfl
  obtain ⟨hi, hm⟩ := r.w.mapper.index_fresh seen (wd.base + 1) (nblocks file (v.srv.transfer c).bs) q.rcv.mapper
    (by omega) (by omega) (by omega) (by omega)
  have hdata := recv_data hbs q.rcv hd (by omega) (by omega) hi hm true true 0
  have hcase := recv_cases hbs q.rcv hd (by omega) (by omega) hi true true 0
    (P := fun y => y.1.failed = false ∧
      (wd.base = r.w.written ∧ y.1.w.written = r.w.written + 1 ∧ (y.1.finished = false ∨ ∃ e, y.2 = some e ∧ e.tag = some y.1.w.written) ∨
        wd.base ≠ r.w.written ∧ y.1.w.written = r.w.written ∧ y.1.finished = false ∧ ∃ e, y.2 = some e ∧ e.tag = some y.1.w.written))
    (by
      rintro w' e (h | h | h) - -
      · cases h
      · cases h
      · omega)
    (by
      intro w' last' e hnext hw he hack
      refine ⟨u.healthy, .inl ⟨by omega, by simp only; omega, ?_⟩⟩
      rcases he with ⟨rfl, -⟩ | ⟨x, rfl, hx, -⟩
      · left
        have := hack rfl (.inr rfl)
        simpa using this
      · right
        exact ⟨x, rfl, by simp only; rw [hw]; exact hx⟩)
    (by
      intro w' x hnext hw hx
      exact ⟨u.healthy, .inr ⟨by omega, hw, hrun, x, rfl, by simp only; rw [hw]; exact hx⟩⟩)
    (by intro w' _ _ h; cases h)
  have hrole : recvRecv (v.srv.transfer c) r d (if true then .all else .err) true 0 = serverRecv (v.srv.transfer c) r d .all true 0 := rfl
  rw [hrole] at hdata hcase
  -- the event
  have ha : Allowed v late w (.server ep (.recv t d ⟨.all, true, 0⟩)) := by
    intro l hl
    rw [u.live, Option.some.injEq] at hl
    subst hl
    exact ⟨.inl ⟨_, hp, rfl, rfl, fun l _ => Nat.le_add_right _ _⟩, .inl rfl⟩
  have hdel : Delivered w (.server ep (.recv t d ⟨.all, true, 0⟩)) := by
    intro l hl
    rw [u.live, Option.some.injEq] at hl
    subst hl
    exact ⟨_, hp, rfl, rfl⟩
  have hdeaf : c.deaf = false := by simp only [Conn.deaf, u.side, u.healthy, hrun, Bool.or_self]
  have hlife : v.srv.lifeStep v.stops (some c) (.recv t d ⟨.all, true, 0⟩) =
      (some (v.srv.handle c t d ⟨.all, true, 0⟩).1, (v.srv.handle c t d ⟨.all, true, 0⟩).2.toList) := by
    simp only [Srv.lifeStep, hdeaf, Bool.and_false, Bool.false_eq_true, ↓reduceIte]
  have hstep := step_live (v := v) u.live u.conn ep (.recv t d ⟨.all, true, 0⟩)
  rw [hlife] at hstep
  simp only at hstep
  have hopts : (v.srv.handle c t d ⟨.all, true, 0⟩).1.opts = c.opts := by simp only [Srv.handle, u.side]
  have henc : (v.srv.handle c t d ⟨.all, true, 0⟩).1.enc = c.enc := by simp only [Srv.handle, u.side]
  have hside : (v.srv.handle c t d ⟨.all, true, 0⟩).1.side = .writer (serverRecv (v.srv.transfer c) r d .all true 0).1 := by
    simp only [Srv.handle, u.side]
  have hout : (v.srv.handle c t d ⟨.all, true, 0⟩).2 = (serverRecv (v.srv.transfer c) r d .all true 0).2.map (·.bytes) := by
    simp only [Srv.handle, u.side]
  have htr := transfer_eq v.srv hopts henc
  have hclock : w.clock ep = w.sent := by simp only [World.clock, u.conn, World.clockOf, u.side]
  have hclock' : (v.step w (.server ep (.recv t d ⟨.all, true, 0⟩))).clock ep = w.clock ep := by
    rw [hstep, hclock]
    simp only [World.clock, setAt_same, World.clockOf, hside]
  have answer : ∀ x, (serverRecv (v.srv.transfer c) r d .all true 0).2 = some x →
      x.tag = some (serverRecv (v.srv.transfer c) r d .all true 0).1.w.written →
      Answered v (v.step w (.server ep (.recv t d ⟨.all, true, 0⟩))) ep (v.srv.handle c t d ⟨.all, true, 0⟩).1
        (serverRecv (v.srv.transfer c) r d .all true 0).1.w.written := by
    intro x hx htag
    have hak := hdata.2.2 x hx
    unfold AckOk at hak
    rw [htag] at hak
    refine ⟨x.bytes, ?_, ?_, ?_⟩
    · rw [hclock', hstep, hout, hx]
      simp
    · rw [htr]; exact hak.2
    · obtain ⟨pk, e1, e2⟩ := serverRecv_emit hx
      rw [hopts]
      exact enc_length v.srv c q.block (emit_enc e1) (.inr e2)
  refine ⟨_, _, _, .one (e := .server ep (.recv t d ⟨.all, true, 0⟩)) (Nat.le_refl _) ⟨rfl, rfl, rfl⟩ ⟨ha, hdel⟩, ⟨.step _ _ u.reach ha, ?_, ?_, ?_, hside, hcase.1, u.time⟩, hopts, henc, ?_⟩
  · rw [hstep]; exact u.cli
  · rw [hstep]; exact u.live
  · rw [hstep]; exact setAt_same _ _ _
  · rcases hcase.2 with ⟨g1, g2, g3⟩ | ⟨g1, g2, g3, x, g4, g5⟩
    · refine .inl ⟨g1, g2, ?_⟩
      rcases g3 with g3 | ⟨x, g4, g5⟩
      · exact .inl g3
      · exact .inr (answer x g4 g5)
    · exact .inr ⟨g1, g2, g3, answer x g4 g5⟩

/-- The client hears the answer: it has finished, or knows everything that is stored. -/
theorem up_hear {v : Parties S} {late} (h : Honest v late) {n file} (hj : v.job.task = .upload n file) {t w cf room ep s since auth c r}
    (u : Uploading v late t w cf room ep s since auth c r) (hans : Answered v w ep c r.w.written) :
    ∃ w', Works v late t w t w' ∧ w'.conns = w.conns ∧
      (w'.cli = .done (.ok (file.length, auth)) [] ∧ r.w.written = nblocks file c.opts.payload ∨
        r.w.written < nblocks file c.opts.payload ∧
        ∃ s', Uploading v late t w' cf room ep s' t auth c r ∧ s'.total = bytesIn file c.opts.payload r.w.written) := by
  obtain ⟨m, wd, seen, q⟩ := u.view h hj
  obtain ⟨a, ha1, ha2, hlen⟩ := hans
  have hok := tick_ok q.pos q.cap q.snd q.running.2 false false .sent (by simp) 0
  obtain ⟨w1, g1, g2, g3, -⟩ := send_tick q.pos q.cap q.snd false false false .sent 0
  have hfin := tick_finished cf s false false false .sent 0
  rw [q.running.1] at hfin
  rw [tick_client q.sender q.running.1 q.running.2] at hok g1
  have h1 := q.base
  have h2 := q.rcv.seen
  have h3 := q.seen
  have h5 := q.span
  have h6 := q.wide
  have h7 := g1.sim.inv.top_le
  have h8 := q.snd.sim.inv.room
  have h9 := q.window
  have hN' : nblocks file c.opts.payload = nblocks file cf.bs := by rw [q.bs]
  obtain ⟨hi, hm⟩ := m.index_fresh w1.base r.w.written (nblocks file cf.bs) g1.mapper (by omega) (by omega) (by omega) (by omega)
  rw [← q.dec] at ha2
  obtain ⟨w2, k1, k2, k3, k4⟩ := send_recv_ack q.pos g1 ha2 (by omega) hi hm
  have hrole : ∀ s, sendRecv cf s a = clientSendRecv cf s a := by intro s; unfold sendRecv; rw [q.sender]
  rw [hrole] at k1 k4
  rw [hok] at k4
  have hbase : w2.base = r.w.written := by rw [k2, g2]; omega
  generalize hs1 : clientSendTick cf s false false false .sent 0 = y at *
  obtain ⟨s1, dd⟩ := y
  simp only at hok g1 hfin k1 k4 k2
  have hack : cf.isAck a = true := by simp only [Cfg.isAck, ha2, decode_ack]
  have hal : Allowed v late w (.client (sendInput t false (.dgram ep a))) := by
    refine ⟨.inl rfl, fun src x hx => ?_⟩
    simp only [sendInput, NetIn.dgram.injEq] at hx
    obtain ⟨rfl, rfl⟩ := hx
    rw [u.cli]
    intro _
    exact .inl ⟨_, ha1, rfl, rfl, fun l _ => Nat.le_add_right _ _⟩
  have hdel : Delivered w (.client (sendInput t false (.dgram ep a))) := by
    intro src x hx
    simp only [sendInput, NetIn.dgram.injEq] at hx
    obtain ⟨rfl, rfl⟩ := hx
    exact ⟨_, ha1, rfl, rfl⟩
  have hworks : Works v late t w t (v.step w (.client (sendInput t false (.dgram ep a)))) :=
    .one (Nat.le_refl _) ⟨rfl, rfl, rfl, rfl, rfl, by simp [sendInput]⟩ ⟨hal, hdel⟩
  have hroom : a.take room = a := List.take_of_length_le (by rw [q.room]; exact hlen)
  have hcli : (v.step w (.client (sendInput t false (.dgram ep a)))).cli =
      if (clientSendRecv cf s1 a).finished then .done (.ok ((clientSendRecv cf s1 a).total, auth)) []
      else .up cf room ep (clientSendRecv cf s1 a) t auth := by
    simp only [Parties.step, u.cli, Cli.step, Cli.upStep, sendInput, hs1, hok, Bool.false_eq_true, ↓reduceIte, hroom, ha2, Option.isNone_some,
      ne_eq, not_true_eq_false, k4, hack]
    split <;> rfl
  have hwr : r.w.written ≤ nblocks file cf.bs := by omega
  refine ⟨_, hworks, rfl, ?_⟩
  by_cases hf : (clientSendRecv cf s1 a).finished = true
  · left
    rw [hcli, if_pos hf]
    have e := k1.fin hf
    refine ⟨?_, by rw [hN', ← e, hbase]⟩
    rw [k1.total, e, bytesIn_nblocks _ _ _ q.pos (Nat.le_refl _)]
  · right
    rw [if_neg hf] at hcli
    have hne : r.w.written ≠ nblocks file cf.bs := by
      intro e
      rcases k1.done (hbase.trans e) with h | h
      · exact hf h
      · rw [k4] at h; cases h
    refine ⟨by omega, _, ⟨.step _ _ u.reach hal, hcli, u.live, u.conn, u.side, u.healthy, by omega⟩, ?_⟩
    rw [k1.total, hbase, q.bs]

theorem bytesIn_inj {file : Bytes} {bs a b : Nat} (hbs : 0 < bs) (ha : a < nblocks file bs) (hb : b < nblocks file bs)
    (h : bytesIn file bs a = bytesIn file bs b) : a = b := by
  unfold nblocks at ha hb
  unfold bytesIn at h
  have h1 : a * bs ≤ file.length := by
    have := Nat.mul_le_mul_right bs (show a ≤ file.length / bs by omega)
    have := Nat.div_mul_le_self file.length bs
    omega
  have h2 : b * bs ≤ file.length := by
    have := Nat.mul_le_mul_right bs (show b ≤ file.length / bs by omega)
    have := Nat.div_mul_le_self file.length bs
    omega
  rw [Nat.min_eq_right h1, Nat.min_eq_right h2] at h
  exact Nat.eq_of_mul_eq_mul_right hbs h

/-- One more block is stored, or the upload is complete. -/
theorem up_more {v : Parties S} {late} (h : Honest v late) {n file} (hj : v.job.task = .upload n file) {t w cf room ep s since auth c r}
    (u : Uploading v late t w cf room ep s since auth c r) (hrun : r.finished = false) (hmax : file.length ≤ (v.srv.transfer c).max) :
    ∃ w', Works v late t w t w' ∧
      ((∃ c' r', w'.cli = .done (.ok (file.length, auth)) [] ∧ w'.conns ep = some c' ∧ c'.side = .writer r' ∧ r'.w.out = file ∧
          r'.finished = true ∧ r'.failed = false) ∨
        ∃ s' since' c' r', Uploading v late t w' cf room ep s' since' auth c' r' ∧ c'.opts = c.opts ∧ c'.enc = c.enc ∧
          r'.finished = false ∧ r'.w.written = r.w.written + 1) := by
  -- when the newest block is not known to the client to be missing
  have key : ∀ {w s since c r}, Uploading v late t w cf room ep s since auth c r → r.finished = false → file.length ≤ (v.srv.transfer c).max →
      ∀ {m wd seen}, UpView v late file w cf room ep s c r m wd seen → wd.base = r.w.written →
      ∃ w', Works v late t w t w' ∧
      ((∃ c' r', w'.cli = .done (.ok (file.length, auth)) [] ∧ w'.conns ep = some c' ∧ c'.side = .writer r' ∧ r'.w.out = file ∧
          r'.finished = true ∧ r'.failed = false) ∨
        ∃ s' since' c' r', Uploading v late t w' cf room ep s' since' auth c' r' ∧ c'.opts = c.opts ∧ c'.enc = c.enc ∧
          r'.finished = false ∧ r'.w.written = r.w.written + 1) := by
    intro w s since c r u hrun hmax m wd seen q hbase
    obtain ⟨s1, d, u1, x1, p1, c1, d1⟩ := up_send u q
    rw [← c1] at p1
    obtain ⟨c2, r2, w2, x2, u2, o2, e2, hc⟩ := up_store u1 hrun hmax q p1 d1
    rcases hc with ⟨-, g2, g3⟩ | ⟨g1, -⟩
    · cases hfin : r2.finished with
      | false => exact ⟨w2, x1.trans x2, .inr ⟨s1, since, c2, r2, u2, o2, e2, hfin, g2⟩⟩
      | true =>
        rw [hfin] at g3
        obtain g3 := g3.resolve_left (by simp)
        obtain ⟨w3, x3, e3, hd⟩ := up_hear h hj u2 g3
        obtain ⟨m2, wd2, seen2, q2⟩ := u2.view h hj
        have hN := q2.rcv.fin hfin
        rcases hd with ⟨k1, -⟩ | ⟨k1, -⟩
        · refine ⟨w3, x1.trans (x2.trans x3), .inl ⟨c2, r2, k1, by rw [e3]; exact u2.conn, u2.side, ?_, hfin, u2.healthy⟩⟩
          have hbs : 0 < (v.srv.transfer c2).bs := by have := q2.pos; rw [q2.bs] at this; exact this
          exact out_eq_file hbs q2.rcv hN
        · have : r2.w.written = nblocks file c2.opts.payload := hN
          omega
    · exact absurd hbase g1
  obtain ⟨m, wd, seen, q⟩ := u.view h hj
  by_cases hbase : wd.base = r.w.written
  · exact key u hrun hmax q hbase
  · obtain ⟨s1, d, u1, x1, p1, c1, d1⟩ := up_send u q
    rw [← c1] at p1
    obtain ⟨c2, r2, w2, x2, u2, o2, e2, hc⟩ := up_store u1 hrun hmax q p1 d1
    rcases hc with ⟨g1, -⟩ | ⟨-, g2, g3, g4⟩
    · exact absurd g1 hbase
    · obtain ⟨w3, x3, -, hd⟩ := up_hear h hj u2 g4
      obtain ⟨m2, wd2, seen2, q2⟩ := u2.view h hj
      rcases hd with ⟨-, k1⟩ | ⟨k1, s3, u3, k2⟩
      · rcases q2.rcv.done k1 with hx | hx
        · rw [g3] at hx; cases hx
        · rw [u2.healthy] at hx; cases hx
      · obtain ⟨m3, wd3, seen3, q3⟩ := u3.view h hj
        have hb3 : wd3.base = r2.w.written := by
          have := q3.snd.total
          rw [k2, q3.bs] at this
          have hl := q3.base_lt
          rw [q3.bs] at hl
          have hp := q3.pos
          rw [q3.bs] at hp
          exact (bytesIn_inj hp k1 hl this).symm
        obtain ⟨w4, x4, res⟩ := key u3 g3 (by rw [transfer_eq v.srv o2 e2]; exact hmax) q3 hb3
        refine ⟨w4, x1.trans (x2.trans (x3.trans x4)), ?_⟩
        rcases res with res | ⟨s', since', c', r', j1, j2, j3, j4, j5⟩
        · exact .inl res
        · exact .inr ⟨s', since', c', r', j1, j2.trans o2, j3.trans e2, j4, by omega⟩

/-- **C74.** Uploads: from every state which can be reached, in which the client is sending the file, its transfer timer has not run
out, and the server's connection with it is alive, has neither failed nor finished, and allows the size of the file: the upload can be
completed by events at the present moment, without a fault of a file or a socket, which deliver only datagrams that were sent. The client
then reports success with the number of bytes, and the server has stored the file and regards the transfer as successful. -/
theorem c74_upload {v : Parties S} {late} (h : Honest v late) {n file} (hj : v.job.task = .upload n file) {w} (hr : Reach v late w)
    {cf room ep s since auth c r} (hc : w.cli = .up cf room ep s since auth) (hl : w.live = some ep) (hconn : w.conns ep = some c)
    (hside : c.side = .writer r) (hok : r.failed = false ∧ r.finished = false) (hmax : file.length ≤ v.srv.cfg.maxFileSize)
    {t : Nat} (ht : t - since ≤ v.cli.cfg.requestTimeout) :
    ∃ w' c' r', Works v late t w t w' ∧ w'.cli = .done (.ok (file.length, auth)) [] ∧
      w'.conns ep = some c' ∧ c'.side = .writer r' ∧ r'.w.out = file ∧ r'.finished = true ∧ r'.failed = false := by
  have key : ∀ (k : Nat) {w s since c r}, Uploading v late t w cf room ep s since auth c r → r.finished = false →
      nblocks file c.opts.payload - r.w.written = k →
      ∃ w' c' r', Works v late t w t w' ∧ w'.cli = .done (.ok (file.length, auth)) [] ∧
        w'.conns ep = some c' ∧ c'.side = .writer r' ∧ r'.w.out = file ∧ r'.finished = true ∧ r'.failed = false := by
    intro k
    induction k with
    | zero =>
      intro w s since c r u hrun hk
      obtain ⟨m, wd, seen, q⟩ := u.view h hj
      have h1 := q.rcv.seen
      have h2 := q.seen
      have h3 := q.top
      rcases q.rcv.done (show r.w.written = nblocks file c.opts.payload by omega) with hx | hx
      · rw [hrun] at hx; cases hx
      · rw [u.healthy] at hx; cases hx
    | succ k ih =>
      intro w s since c r u hrun hk
      obtain ⟨w', x, hres⟩ := up_more h hj u hrun hmax
      rcases hres with ⟨c', r', g⟩ | ⟨s', since', c', r', g1, g2, g3, g4, g5⟩
      · exact ⟨w', c', r', x, g⟩
      · obtain ⟨w2, c2, r2, x2, rest⟩ := ih g1 g4 (by rw [g2]; omega)
        exact ⟨w2, c2, r2, x.trans x2, rest⟩
  exact key _ ⟨hr, hc, hl, hconn, hside, hok.1, ht⟩ hok.2 rfl

end Tftp

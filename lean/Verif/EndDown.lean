import Verif.EndUp
/-
C53: a whole download, from the first request to the result, with the real client and the real server.
-/
namespace Tftp
open Spec

variable {S : SigScheme}

/-! ### The invariant -/

/-- What is known of a connection which reads the file `F`; `wr`, `seen`: how far the client has stored and seen it. -/
structure DownConn (v : Parties S) (late : Option Nat) (F : Bytes) (wr seen : Nat) (w : World) (e : Ep) (c : Conn) : Prop where
  block : 512 ≤ c.opts.blockSize
  window : c.opts.window ≤ v.job.opts.window
  place : e = v.cli.cfg.endpoint → ∀ n mark,
    (∀ d, v.IsReq d → AckFine (v.srv.transfer c).codec.dec F c.opts.payload n mark d) ∧
    ∀ d, v.Refusal d → DataFine (v.srv.transfer c).codec.dec F c.opts.payload n mark (d.take (recvBuffer c.opts.blockSize))
  opened : ∃ name io size, normalizeName v.job.name = some name ∧ (e, io) ∈ w.started ∧ io.openRead name = some (size, F)
  small : late = none → F.length ≤ 26000000
  side : ∃ s m wd, c.side = .reader s ∧ SInv (v.srv.transfer c) F m wd s ∧ wd.base ≤ wr ∧ seen ≤ wd.top ∧
    ∀ p ∈ w.down, p.ep = e →
      DataFine (v.srv.transfer c).codec.dec F c.opts.payload wd.top p.mark (p.bytes.take (recvBuffer c.opts.blockSize))
  up : ∀ p ∈ w.up, p.ep = e → AckFine (v.srv.transfer c).codec.dec F c.opts.payload wr p.mark p.bytes

/-- What is known of the client. -/
def DownCli (v : Parties S) (F : Ep → Bytes) (bound : Option Ep) (wr seen : Nat) (w : World) : Prop :=
  match w.cli with
  | .query q => bound = none ∧ v.ReqExts q.exts ∧ v.ReqExts q.used ∧ q.room = recvBuffer v.co.blockSize
  | .up _ _ _ _ _ _ => False
  | .down cf room ep s _ _ => bound = some ep ∧ ∃ c, w.conns ep = some c ∧ cf.bs = c.opts.payload ∧
      cf.codec.dec = (v.srv.transfer c).codec.dec ∧ room = recvBuffer c.opts.blockSize ∧ cf.receiver = .client ∧
      s.finished = false ∧ s.failed = false ∧ RInv cf (F ep) seen s ∧ s.w.written = wr
  | .done (.ok (n, _)) f => ∃ e, bound = some e ∧ n = (F e).length ∧ f = F e
  | .done (.error _) f => (bound = none ∧ f = []) ∨
      ∃ e c, bound = some e ∧ w.conns e = some c ∧ f <+: F e ∧ wr < nblocks (F e) c.opts.payload

structure DownInv (v : Parties S) (late : Option Nat) (F : Ep → Bytes) (bound : Option Ep) (wr seen : Nat) (w : World) : Prop where
  ups : ∀ p ∈ w.up, (w.conns p.ep).isSome ∨ p.ep = v.cli.cfg.endpoint ∧ v.IsReq p.bytes
  downs : ∀ p ∈ w.down, p.ep.ip = v.cli.cfg.endpoint.ip ∧ ((w.conns p.ep).isSome ∨ p.ep = v.cli.cfg.endpoint ∧ v.Refusal p.bytes)
  acc : ∀ x ∈ w.acc, ∃ c, w.conns x.1 = some c ∧ Accepts v c x.2
  live : ∀ l, w.live = some l → (w.conns l).isSome ∧ l.ip = v.cli.cfg.endpoint.ip
  conn : ∀ e c, w.conns e = some c →
    DownConn v late (F e) (if bound = some e then wr else 0) (if bound = some e then seen else 0) w e c
  le : wr ≤ seen
  tied : ∀ e, bound = some e → (w.conns e).isSome
  cli : DownCli v F bound wr seen w

theorem DownCli.congr {v : Parties S} {F F' bound wr seen w w'} (h : DownCli v F bound wr seen w) (hc : w'.cli = w.cli)
    (ht : ∀ e, bound = some e → (w.conns e).isSome)
    (hs : ∀ e c, w.conns e = some c → F' e = F e ∧ ∃ c', w'.conns e = some c' ∧ c'.opts = c.opts ∧ c'.enc = c.enc) :
    DownCli v F' bound wr seen w' := by
  unfold DownCli at *
  rw [hc]
  split at h
  · exact h
  · exact h
  · obtain ⟨h1, c, h2, h3, h4, h5, h6, h7, h8, h9⟩ := h
    obtain ⟨f, c', g1, g2, g3⟩ := hs _ _ h2
    rw [← g2] at h3 h5
    rw [← transfer_eq v.srv g2 g3] at h4
    exact ⟨h1, c', g1, h3, h4, h5, h6, h7, h8, by rw [f]; exact h9⟩
  · obtain ⟨e, h1, h2⟩ := h
    obtain ⟨c, h3⟩ := Option.isSome_iff_exists.mp (ht e h1)
    obtain ⟨f, -⟩ := hs _ _ h3
    exact ⟨e, h1, by rw [f]; exact h2⟩
  · rcases h with h | ⟨e, c, h1, h2, h3⟩
    · exact .inl h
    · obtain ⟨f, c', g1, g2, g3⟩ := hs _ _ h2
      exact .inr ⟨e, c', h1, g1, by rw [f, g2]; exact h3⟩

/-- A step of the live connection. -/
theorem DownInv.server {v : Parties S} {late F bound wr seen w} (h : DownInv v late F bound wr seen w) {l : Ep} {c c' : Conn} {s s' : SendSt}
    {m m' : Mapper} {wd wd' : Window} {out : List Bytes} {w' : World} (hl : w.conns l = some c) (ho : c'.opts = c.opts) (he : c'.enc = c.enc)
    (hlip : l.ip = v.cli.cfg.endpoint.ip)
    (hs' : c'.side = .reader s') (_hS : SInv (v.srv.transfer c) (F l) m wd s)
    (hr : SInv (v.srv.transfer c) (F l) m' wd' s')
    (htop : wd.top ≤ wd'.top) (hbase : wd'.base ≤ if bound = some l then wr else 0)
    (hdown : ∀ p ∈ w.down, p.ep = l →
      DataFine (v.srv.transfer c).codec.dec (F l) c.opts.payload wd.top p.mark (p.bytes.take (recvBuffer c.opts.blockSize)))
    (hseen : (if bound = some l then seen else 0) ≤ wd.top)
    (hout : ∀ d ∈ out, d.length ≤ recvBuffer c.opts.blockSize ∧
      DataFine (v.srv.transfer c).codec.dec (F l) c.opts.payload wd'.top (w.clock l) d)
    (e1 : w'.conns = setAt w.conns l c') (e2 : w'.live = w.live ∨ w'.live = none) (e3 : w'.cli = w.cli) (e4 : w'.up = w.up)
    (e5 : w'.down = out.map (⟨l, ·, w.clock l⟩) ++ w.down) (e6 : w'.acc = w.acc) (e7 : w'.started = w.started) :
    DownInv v late F bound wr seen w' := by
  have ht := transfer_eq v.srv ho he
  have hkeep : ∀ e x, w.conns e = some x → F e = F e ∧ ∃ x', w'.conns e = some x' ∧ x'.opts = x.opts ∧ x'.enc = x.enc := by
    intro e x hx
    refine ⟨rfl, ?_⟩
    rw [e1]
    by_cases hel : e = l
    · subst hel
      rw [hl] at hx; cases hx
      exact ⟨c', setAt_same _ _ _, ho, he⟩
    · exact ⟨x, by rw [setAt_other hel]; exact hx, rfl, rfl⟩
  have hsome : ∀ e, (w.conns e).isSome → (w'.conns e).isSome := by
    intro e hx
    obtain ⟨x, hx⟩ := Option.isSome_iff_exists.mp hx
    obtain ⟨-, x', h1, -⟩ := hkeep e x hx
    rw [h1]; rfl
  refine ⟨?_, ?_, ?_, ?_, ?_, h.le, fun e hb => hsome e (h.tied e hb), ?_⟩
  · rw [e4]; intro p hp; exact (h.ups p hp).imp (hsome _) id
  · rw [e5]
    intro p hp
    rcases List.mem_append.mp hp with hp | hp
    · obtain ⟨d, -, rfl⟩ := List.mem_map.mp hp
      exact ⟨hlip, .inl (by rw [e1, setAt_same]; rfl)⟩
    · exact ⟨(h.downs p hp).1, (h.downs p hp).2.imp (hsome _) id⟩
  · rw [e6]
    intro x hx
    obtain ⟨y, h1, h2⟩ := h.acc x hx
    obtain ⟨-, y', g1, g2, g3⟩ := hkeep _ _ h1
    exact ⟨y', g1, h2.congr g2 g3⟩
  · intro l' hl'
    rcases e2 with e2 | e2
    · rw [e2] at hl'
      exact ⟨hsome _ (h.live l' hl').1, (h.live l' hl').2⟩
    · rw [e2] at hl'; cases hl'
  · intro e x hx
    rw [e1] at hx
    by_cases hel : e = l
    · subst hel
      rw [setAt_same] at hx; cases hx
      obtain ⟨b1, b2, b3, b4, b5, -, b7⟩ := h.conn e c hl
      refine ⟨by rw [ho]; exact b1, by rw [ho]; exact b2, by rw [ht, ho]; exact b3, by rw [e7]; exact b4, b5,
        ⟨s', m', wd', hs', by rw [ht]; exact hr, hbase, Nat.le_trans hseen htop, ?_⟩, ?_⟩
      · rw [e5, ht, ho]
        intro p hp hpe
        rcases List.mem_append.mp hp with hp | hp
        · obtain ⟨d, hd, rfl⟩ := List.mem_map.mp hp
          rw [List.take_of_length_le (hout d hd).1]
          exact (hout d hd).2
        · exact (hdown p hp hpe).mono htop
      · rw [e4, ht, ho]; exact b7
    · rw [setAt_other hel] at hx
      obtain ⟨b1, b2, b3, b4, b5, ⟨s0, m0, wd0, c1, c2, c3, c4, c5⟩, b7⟩ := h.conn e x hx
      refine ⟨b1, b2, b3, by rw [e7]; exact b4, b5, ⟨s0, m0, wd0, c1, c2, c3, c4, ?_⟩, by rw [e4]; exact b7⟩
      rw [e5]
      intro p hp hpe
      rcases List.mem_append.mp hp with hp | hp
      · obtain ⟨d, hd, rfl⟩ := List.mem_map.mp hp
        exact absurd hpe.symm hel
      · exact c5 p hp hpe
  · exact h.cli.congr e3 h.tied hkeep

/-- A step of the client. -/
theorem DownInv.client {v : Parties S} {late F bound wr seen w} (h : DownInv v late F bound wr seen w) {bound' : Option Ep} {wr' seen' : Nat}
    {out : List (Ep × Bytes)} {w' : World}
    (e1 : w'.conns = w.conns) (e2 : w'.live = w.live) (e4 : w'.up = out.map (fun x => ⟨x.1, x.2, w.clock x.1⟩) ++ w.up)
    (e5 : w'.down = w.down) (e6 : w'.acc = w.acc) (e7 : w'.started = w.started)
    (hout : ∀ x ∈ out, x.1 = v.cli.cfg.endpoint ∧ v.IsReq x.2 ∨ ∃ c, w.conns x.1 = some c ∧
      AckFine (v.srv.transfer c).codec.dec (F x.1) c.opts.payload (if bound' = some x.1 then wr' else 0) (w.clock x.1) x.2)
    (hwr : ∀ e, (if bound = some e then wr else 0) ≤ if bound' = some e then wr' else 0)
    (hside : ∀ e c, w.conns e = some c → ∃ s m wd, c.side = .reader s ∧ SInv (v.srv.transfer c) (F e) m wd s ∧
      wd.base ≤ (if bound' = some e then wr' else 0) ∧ (if bound' = some e then seen' else 0) ≤ wd.top ∧
      ∀ p ∈ w.down, p.ep = e →
        DataFine (v.srv.transfer c).codec.dec (F e) c.opts.payload wd.top p.mark (p.bytes.take (recvBuffer c.opts.blockSize)))
    (hle : wr' ≤ seen')
    (htied : ∀ e, bound' = some e → (w.conns e).isSome)
    (hcli : DownCli v F bound' wr' seen' w') : DownInv v late F bound' wr' seen' w' := by
  refine ⟨?_, by rw [e5, e1]; exact h.downs, by rw [e6, e1]; exact h.acc, by rw [e2, e1]; exact h.live, ?_, hle, by rw [e1]; exact htied, hcli⟩
  · rw [e4, e1]
    intro p hp
    rcases List.mem_append.mp hp with hp | hp
    · obtain ⟨x, hx, rfl⟩ := List.mem_map.mp hp
      rcases hout x hx with h1 | ⟨c, h1, -⟩
      · exact .inr h1
      · left
        show (w.conns x.1).isSome
        rw [h1]; rfl
    · exact h.ups p hp
  · rw [e1]
    intro e c hc
    obtain ⟨b1, b2, b3, b4, b5, -, b7⟩ := h.conn e c hc
    refine ⟨b1, b2, b3, by rw [e7]; exact b4, b5, by rw [e5]; exact hside e c hc, ?_⟩
    rw [e4]
    intro p hp hpe
    rcases List.mem_append.mp hp with hp | hp
    · obtain ⟨x, hx, rfl⟩ := List.mem_map.mp hp
      rcases hout x hx with ⟨h1, h2⟩ | ⟨c', h1, h2⟩
      · exact (b3 (hpe.symm.trans h1) _ _).1 _ h2
      · simp only at hpe
        subst hpe
        rw [hc] at h1; cases h1
        exact h2
    · exact (b7 p hp hpe).mono (hwr e)

/-! ### The server's steps -/

theorem clock_reader {w : World} {e c s} (hc : w.conns e = some c) (hs : c.side = .reader s) : w.clock e = s.total := by
  simp only [World.clock, hc, World.clockOf, hs]

theorem tick_server (v : Srv S) (c : Conn) {s : SendSt} (hf : s.finished = false) (hx : s.failed = false)
    (retry fail wb : Bool) (net : SendRes) (nonce : Nat) :
    sendTick (v.transfer c) s retry fail wb net nonce = serverSendTick (v.transfer c) s retry fail net nonce := by
  unfold sendTick
  rw [hf, hx]
  rfl

theorem down_server {v : Parties S} {late} (h : Honest v late) {ok} (hj : v.job.task = .download ok) {F bound wr seen w}
    (hi : DownInv v late F bound wr seen w) (ep : Ep) (e : LifeEv) (ha : Allowed v late w (.server ep e)) :
    ∃ F', (∀ e, (w.conns e).isSome → F' e = F e) ∧ DownInv v late F' bound wr seen (v.step w (.server ep e)) := by
  have hwrite : v.job.write = false := by unfold Job.write; rw [hj]
  cases hlive : w.live with
  | some l =>
    cases hc : w.conns l with
    | none => rw [step_dead hlive hc]; exact ⟨F, fun _ _ => rfl, hi⟩
    | some c =>
      refine ⟨F, fun _ _ => rfl, ?_⟩
      rw [step_live hlive hc]
      have hco := hi.conn l c hc
      obtain ⟨s, m, wd, hs, k2, k3, k4, k5⟩ := hco.side
      have hclock := clock_reader hc hs
      have hlip := (hi.live l hlive).2
      have hpay := payload_471 hco.block
      have hbs : 0 < (v.srv.transfer c).bs := by show 0 < c.opts.payload; omega
      -- the connection is as before
      have same : ∀ (lv : Option Ep) (out : List Bytes), lv = w.live ∨ lv = none → (∀ d ∈ out, ∃ i x, (v.srv.transfer c).codec.enc i (Packet.error x []).toBytes = some d) →
          DownInv v late F bound wr seen { w with live := lv, down := out.map (⟨l, ·, w.clock l⟩) ++ w.down } := by
        intro lv out hlv hout
        refine hi.server (c' := c) (out := out) hc rfl rfl hlip hs k2 k2 (Nat.le_refl _) k3 k5 k4 ?_ (setAt_self hc).symm hlv rfl rfl rfl rfl rfl
        intro d hd
        obtain ⟨i, x, hx⟩ := hout d hd
        refine ⟨enc_length v.srv c hco.block hx (.inr (.inr ⟨x, rfl⟩)), ?_⟩
        exact (fine_of_error ((v.srv.transfer c).codec.dec_enc _ _ _ hx) _ _ _ _).1
      have quiet : DownInv v late F bound wr seen { w with conns := setAt w.conns l c, down := ([] : List Pkt) ++ w.down } := by
        rw [setAt_self hc]
        exact hi
      cases e with
      | start t dg io => exact quiet
      | tick t io =>
        simp only [Srv.lifeStep]
        by_cases hact : c.active = true
        · rw [if_pos hact]
          have hff : s.failed = false ∧ s.finished = false := by
            simpa [Conn.active, hs, Conn.failed, Conn.finished] using hact
          obtain ⟨wd', g1, g2, g3, g4⟩ := link_tick (D := (v.srv.transfer c).codec.dec) hbs (by exact hpay.2) rfl k2 (c.retryDue t) io.fail false io.net io.nonce
          rw [tick_server v.srv c hff.2 hff.1] at g1 g4
          refine hi.server (c' := (v.srv.sendBlock c t io).1) (out := (v.srv.sendBlock c t io).2.1.toList) (s := s)
            (s' := (serverSendTick (v.srv.transfer c) s (c.retryDue t) io.fail io.net io.nonce).1) hc ?_ ?_ hlip ?_ k2 g1 g3
            (by rw [g2]; exact k3) k5 k4 ?_ rfl (.inl rfl) rfl rfl rfl rfl rfl
          · simp only [Srv.sendBlock, hs]; split <;> rfl
          · simp only [Srv.sendBlock, hs]; split <;> rfl
          · simp only [Srv.sendBlock, hs]; cases c.retryDue t <;> rfl
          · intro d hd
            have hd : d ∈ ((serverSendTick (v.srv.transfer c) s (c.retryDue t) io.fail io.net io.nonce).2.map (·.bytes)).toList := by
              simp only [Srv.sendBlock, hs] at hd
              cases hb : c.retryDue t <;> rw [hb] at hd <;> exact hd
            simp only [Option.mem_toList, Option.map_eq_some_iff] at hd
            obtain ⟨x, hx, rfl⟩ := hd
            obtain ⟨g5, q, g6, g7⟩ := g4 x hx
            refine ⟨enc_length v.srv c hco.block (emit_enc g6) ?_, ?_⟩
            · rcases g7 with g7 | ⟨x, rfl⟩
              · exact .inl g7
              · exact .inr (.inr ⟨x, rfl⟩)
            · rw [hclock, k2.total]; exact g5
        · rw [if_neg hact]
          exact quiet
      | drop => exact same none [] (.inr rfl) (by simp)
      | check t io =>
        simp only [Srv.lifeStep]
        have herr : ∀ d ∈ (v.srv.timeout c t io).2.toList, ∃ i x, (v.srv.transfer c).codec.enc i (Packet.error x []).toBytes = some d := by
          intro d hd
          simp only [Option.mem_toList] at hd
          unfold Srv.timeout at hd
          split at hd
          · cases hd
          · split at hd
            · cases hd
            · simp only at hd
              split at hd
              · exact ⟨_, _, hd⟩
              · cases hd
        by_cases ht : (v.srv.timeout c t io).1 = true
        · simp only [ht, if_true]
          exact same none _ (.inr rfl) herr
        · simp only [ht, Bool.false_eq_true, if_false]
          rw [setAt_self hc]
          exact same w.live _ (.inl rfl) herr
      | recv t dg io =>
        obtain ⟨hdg, -⟩ := ha l hlive
        simp only [Srv.lifeStep]
        by_cases hdeaf : (v.stops && c.deaf) = true
        · rw [if_pos hdeaf]
          exact quiet
        · rw [if_neg hdeaf]
          rcases hdg with ⟨p, hp, hpe, rfl, hage⟩ | hforged
          case inr =>
            rw [handle_forged v.srv c t dg io (hforged c hc)]
            exact quiet
          have hle : (if bound = some l then wr else 0) ≤ if bound = some l then seen else 0 := by
            split
            · exact hi.le
            · exact Nat.le_refl _
          have hWk := window_ok h hco.small hpay.1
          obtain ⟨m', wd', q1, q2, q3, q4⟩ := link_ack (c := v.srv.transfer c) hbs rfl k2 k3 (Nat.le_trans hle k4)
            (by have := hco.window; show c.opts.window ≤ 10000 ∨ _; exact hWk.imp (Nat.le_trans this) id) (hco.up p hp hpe)
            (by
              rw [← k2.total, ← hclock]
              exact timely_of h hco.small hpay.1 hco.window hage)
          have heq : sendRecv (v.srv.transfer c) s p.bytes = serverSendRecv (v.srv.transfer c) s p.bytes := rfl
          rw [heq] at q1
          refine hi.server (c' := (v.srv.handle c t p.bytes io).1) (out := (v.srv.handle c t p.bytes io).2.toList) (s := s)
            (s' := serverSendRecv (v.srv.transfer c) s p.bytes) hc ?_ ?_ hlip ?_ k2 q1 (by rw [q4]; exact Nat.le_refl _) q3 k5 k4 ?_
            rfl (.inl rfl) rfl rfl rfl rfl rfl
          · simp only [Srv.handle, hs]; split <;> rfl
          · simp only [Srv.handle, hs]; split <;> rfl
          · simp only [Srv.handle, hs]; split <;> rfl
          · intro d hd
            simp only [Srv.handle, hs] at hd
            split at hd <;> cases hd
  | none =>
    cases e with
    | tick t io | recv t dg io | check t io | drop => rw [step_idle hlive ep _ rfl]; exact ⟨F, fun _ _ => rfl, hi⟩
    | start t dg io =>
      obtain ⟨⟨p, hp, hpe, rfl⟩, hasks, ⟨hip, hnew⟩, hos, hcross⟩ := ha hlive
      by_cases hreq : v.srv.requestOf p.bytes = none
      · rw [step_idle hlive ep _ (by simp only [Srv.lifeStep, newConn_other hreq])]; exact ⟨F, fun _ _ => rfl, hi⟩
      replace hreq : v.IsReq p.bytes := by
        cases hm : (w.conns v.cli.cfg.endpoint).isSome with
        | true => exact hasks hm hreq
        | false =>
          rcases hi.ups p hp with g | g
          · rw [hpe, hm] at g; cases g
          · exact g.2
      unfold Parties.step
      simp only [hlive, Srv.lifeStep]
      cases hres : (v.srv.newConn t p.bytes io).result with
      | error x =>
        simp only
        refine ⟨F, fun _ _ => rfl, hi.ups, ?_, hi.acc, (fun l hl => nomatch hl), ?_, hi.le, hi.tied, hi.cli.congr rfl hi.tied fun e c hc => ⟨rfl, c, hc, rfl, rfl⟩⟩
        · intro q hq
          rcases List.mem_append.mp hq with hq | hq
          · obtain ⟨d, hd, rfl⟩ := List.mem_map.mp hq
            exact ⟨rfl, .inr ⟨rfl, t, p.bytes, io, hreq, hd⟩⟩
          · exact hi.downs q hq
        · intro e c hc
          obtain ⟨b1, b2, b3, b4, b5, ⟨s, m, wd, c1, c2, c3, c4, c5⟩, b7⟩ := hi.conn e c hc
          refine ⟨b1, b2, b3, b4, b5, ⟨s, m, wd, c1, c2, c3, c4, ?_⟩, b7⟩
          intro q hq hqe
          rcases List.mem_append.mp hq with hq | hq
          · obtain ⟨d, hd, rfl⟩ := List.mem_map.mp hq
            exact (b3 hqe.symm _ _).2 d ⟨t, p.bytes, io, hreq, hd⟩
          · exact c5 q hq hqe
      | ok y =>
        obtain ⟨c, out⟩ := y
        simp only
        obtain ⟨n1, n2, n3, ⟨name, n4, n5⟩, n6⟩ := new_conn h hos hreq hres (fun hl => (hcross c out hres hl).1)
        rw [hwrite, if_neg (by simp)] at n5
        obtain ⟨size, file, n5, n7⟩ := n5
        have hold : ∀ e x, w.conns e = some x → e ≠ ep := by
          rintro e x hx rfl
          rw [hnew] at hx; cases hx
        have hb : bound ≠ some ep := by
          intro hb
          obtain ⟨x, hx⟩ := Option.isSome_iff_exists.mp (hi.tied ep hb)
          rw [hnew] at hx; cases hx
        have hkeep : ∀ e x, w.conns e = some x → setAt w.conns ep c e = some x := by
          intro e x hx
          rw [setAt_other (hold e x hx)]; exact hx
        have hsome : ∀ e, (w.conns e).isSome → (setAt w.conns ep c e).isSome := by
          intro e hx
          obtain ⟨x, hx⟩ := Option.isSome_iff_exists.mp hx
          rw [hkeep e x hx]; rfl
        have hclk : w.clockOf c = 0 := by simp only [World.clockOf, n7]
        have stray : ep = v.cli.cfg.endpoint → ∀ n mark,
            (∀ d, v.IsReq d → AckFine (v.srv.transfer c).codec.dec file c.opts.payload n mark d) ∧
            ∀ d, v.Refusal d → DataFine (v.srv.transfer c).codec.dec file c.opts.payload n mark (d.take (recvBuffer c.opts.blockSize)) := by
          intro hx n mark
          obtain ⟨f1, f2⟩ := stray_fine h hreq hres (fun hl => (hcross c out hres hl).2 hx) file c.opts.payload n mark
          exact ⟨fun d hd => (f1 d hd).2, fun d hd => (f2 d hd _).1⟩
        refine ⟨fun e => if e = ep then file else F e, fun e he => if_neg (by obtain ⟨x, hx⟩ := Option.isSome_iff_exists.mp he; exact hold e x hx), fun q hq => (hi.ups q hq).imp (hsome _) id, ?_, ?_, ?_, ?_, hi.le,
          fun e hbe => hsome e (hi.tied e hbe), ?_⟩
        · intro q hq
          rcases List.mem_append.mp hq with hq | hq
          · obtain ⟨d, -, rfl⟩ := List.mem_map.mp hq
            exact ⟨hip, .inl (by simp only [setAt_same]; rfl)⟩
          · exact ⟨(hi.downs q hq).1, (hi.downs q hq).2.imp (hsome _) id⟩
        · intro x hx
          rcases List.mem_append.mp hx with hx | hx
          · obtain ⟨d, hd, rfl⟩ := List.mem_map.mp hx
            exact ⟨c, setAt_same _ _ _, n6 d hd⟩
          · obtain ⟨y, h1, h2⟩ := hi.acc x hx
            exact ⟨y, hkeep _ _ h1, h2⟩
        · intro l hl
          simp only [Option.some.injEq] at hl
          subst hl
          exact ⟨by simp only [setAt_same]; rfl, hip⟩
        · intro e x hx
          by_cases hee : e = ep
          · subst hee
            simp only [setAt_same, Option.some.injEq] at hx
            subst hx
            rw [if_neg hb, if_neg hb, if_pos rfl]
            refine ⟨n1.1, n3, stray, ⟨name, io, size, n4, by simp [LifeEv.opened], n5⟩, fun hl => hos.small name size file hl n5,
              ⟨_, Mapper.new, Window.init, n7, ?_, Nat.zero_le _, Nat.zero_le _, ?_⟩, ?_⟩
            · refine SInv.init (c := v.srv.transfer c) ?_
              intro hk
              show c.opts.window = 1
              unfold Srv.kind at hk
              split at hk
              · cases hk
              · split at hk
                · assumption
                · cases hk
            · intro q hq hqe
              rcases List.mem_append.mp hq with hq | hq
              · obtain ⟨d, hd, rfl⟩ := List.mem_map.mp hq
                have hA := n6 d hd
                rw [List.take_of_length_le hA.room']
                simp only [hclk]
                exact (hA.fine _ _ _).1
              · rcases (hi.downs q hq).2 with this | ⟨hx, this⟩
                · rw [hqe, hnew] at this; cases this
                · exact (stray (hqe.symm.trans hx) _ _).2 _ this
            · intro q hq hqe
              rcases hi.ups q hq with this | ⟨hx, this⟩
              · rw [hqe, hnew] at this; cases this
              · exact (stray (hqe.symm.trans hx) _ _).1 _ this
          · simp only [setAt_other hee] at hx
            rw [if_neg hee]
            obtain ⟨b1, b2, b3, ⟨nm, io', sz, b41, b42, b43⟩, b5, ⟨s, m, wd, c1, c2, c3, c4, c5⟩, b7⟩ := hi.conn e x hx
            refine ⟨b1, b2, b3, ⟨nm, io', sz, b41, List.mem_append.mpr (.inr b42), b43⟩, b5, ⟨s, m, wd, c1, c2, c3, c4, ?_⟩, b7⟩
            intro q hq hqe
            rcases List.mem_append.mp hq with hq | hq
            · obtain ⟨d, -, rfl⟩ := List.mem_map.mp hq
              exact absurd hqe.symm hee
            · exact c5 q hq hqe
        · refine hi.cli.congr rfl hi.tied fun e x hx => ⟨?_, x, hkeep e x hx, rfl, rfl⟩
          rw [if_neg (hold e x hx)]

/-! ### The client's steps -/

/-- What a receiver which gives up sends is no acknowledgement. -/
theorem clientRecv_failed {c : Cfg} {s : RecvSt} {dg : Bytes} {io : WriteIo} {sendOk : Bool} {nonce : Nat} (hs : s.failed = false)
    (h : (clientRecv c s dg io sendOk nonce).1.failed = true) {d : Dgram} (hd : (clientRecv c s dg io sendOk nonce).2 = some d) :
    ∃ x, c.codec.dec d.bytes = some (Packet.error x []).toBytes := by
  generalize hr : clientRecv c s dg io sendOk nonce = r at h hd
  obtain ⟨s', a⟩ := r
  simp only at h hd
  subst hd
  unfold clientRecv at hr
  simp only at hr
  repeat' split at hr
  all_goals
    (try simp only [Prod.mk.injEq, reduceCtorEq, and_false] at hr)
    try (obtain ⟨h1, h2⟩ := hr)
    try subst h1
    first
    | done
    | (simp only [hs, Bool.false_eq_true] at h; done)
    | (split at h2 <;> first | cases h2 | exact ⟨_, (emit_some h2).2⟩)
    | exact ⟨_, (emit_some h2).2⟩

theorem down_down {v : Parties S} {late} (h : Honest v late) {F bound wr seen w}
    (hi : DownInv v late F bound wr seen w) {cf room ep s since auth} (hcl : w.cli = .down cf room ep s since auth) (i : CliIn)
    (ha : Allowed v late w (.client i)) : ∃ wr' seen', DownInv v late F bound wr' seen' (v.step w (.client i)) := by
  have hcli := hi.cli
  unfold DownCli at hcli
  rw [hcl] at hcli
  obtain ⟨hb, c, hc, hbs, hdec, hroom, hrc, hf0, hx0, hR, rfl⟩ := hcli
  have hco := hi.conn ep c hc
  obtain ⟨ss, m, wd, hss, k2, k3, k4, k5⟩ := hco.side
  rw [if_pos hb] at k3 k4
  have hclock := clock_reader hc hss
  have hpay := payload_471 hco.block
  have hbs0 : 0 < cf.bs := by rw [hbs]; omega
  have hbs1 : 0 < (v.srv.transfer c).bs := by show 0 < c.opts.payload; omega
  have hroom1 := k2.sim.inv.room
  have htop1 := k2.sim.inv.top_le
  change wd.top ≤ nblocks (F ep) c.opts.payload at htop1
  change wd.top - wd.base ≤ c.opts.window at hroom1
  have hstep : v.step w (.client i) = { w with
      cli := (v.cli.downStep cf room ep s since auth i).1
      up := (v.cli.downStep cf room ep s since auth i).2.map (fun x => ⟨x.1, x.2, w.clock x.1⟩) ++ w.up
      sent := (v.cli.downStep cf room ep s since auth i).1.confirmed w.sent } := by
    simp only [Parties.step, hcl, Cli.step]
  rw [hstep]
  -- every outcome
  have fin : ∀ (wr' seen' : Nat) (st : CliSt) (out : List Bytes), s.w.written ≤ wr' → wr' ≤ seen' →
      (∀ d ∈ out, AckFine (v.srv.transfer c).codec.dec (F ep) c.opts.payload wr' (w.clock ep) d) →
      seen' ≤ wd.top →
      DownCli v F bound wr' seen' { w with cli := st } →
      DownInv v late F bound wr' seen' { w with
        cli := st
        up := (out.map (ep, ·)).map (fun x => ⟨x.1, x.2, w.clock x.1⟩) ++ w.up
        sent := st.confirmed w.sent } := by
    intro wr' seen' st out hw1 hw2 hout hsn hst
    refine hi.client (w' := { w with
        cli := st
        up := (out.map (ep, ·)).map (fun x => ⟨x.1, x.2, w.clock x.1⟩) ++ w.up
        sent := st.confirmed w.sent }) rfl rfl rfl rfl rfl rfl ?_ ?_ ?_ hw2 hi.tied hst
    · intro x hx
      obtain ⟨y, hy, rfl⟩ := List.mem_map.mp hx
      refine .inr ⟨c, hc, ?_⟩
      simp only [hb, if_true]
      exact hout y hy
    · intro e
      split
      · exact hw1
      · exact Nat.le_refl _
    · intro e x hx
      by_cases he : bound = some e
      · rw [if_pos he, if_pos he]
        rw [hb] at he
        simp only [Option.some.injEq] at he
        subst he
        rw [hc] at hx; cases hx
        exact ⟨ss, m, wd, hss, k2, Nat.le_trans k3 hw1, hsn, k5⟩
      · have := (hi.conn e x hx).side
        rw [if_neg he, if_neg he] at this ⊢
        exact this
  have hlt : s.w.written < nblocks (F ep) c.opts.payload := by
    have h1 : s.w.written ≤ nblocks (F ep) c.opts.payload := Nat.le_trans hR.seen (Nat.le_trans k4 htop1)
    rcases Nat.lt_or_ge s.w.written (nblocks (F ep) c.opts.payload) with h2 | h2
    · exact h2
    · have := hR.done (by rw [hbs]; omega)
      rw [hf0, hx0] at this
      simp at this
  have stop : ∀ x f (out : List Bytes), f <+: F ep → (∀ d ∈ out, AckFine (v.srv.transfer c).codec.dec (F ep) c.opts.payload s.w.written (w.clock ep) d) →
      ∃ wr' seen', DownInv v late F bound wr' seen' { w with
        cli := .done (.error x) f
        up := (out.map (ep, ·)).map (fun x => ⟨x.1, x.2, w.clock x.1⟩) ++ w.up
        sent := CliSt.confirmed w.sent (.done (.error x) f) } := by
    intro x f out hf hout
    exact ⟨s.w.written, seen, fin _ _ _ _ (Nat.le_refl _) hi.le hout k4 (.inr ⟨ep, c, hb, hc, hf, hlt⟩)⟩
  have hpre : s.w.out <+: F ep := by rw [hR.out]; exact List.take_prefix _ _
  have go : ∀ since', ∃ wr' seen', DownInv v late F bound wr' seen' { w with
        cli := .down cf room ep s since' auth
        up := (([] : List Bytes).map (ep, ·)).map (fun x => ⟨x.1, x.2, w.clock x.1⟩) ++ w.up
        sent := CliSt.confirmed w.sent (.down cf room ep s since' auth) } := by
    intro since'
    exact ⟨s.w.written, seen, fin _ _ _ _ (Nat.le_refl _) hi.le (by simp) k4
      ⟨hb, c, hc, hbs, hdec, hroom, hrc, hf0, hx0, hR, rfl⟩⟩
  unfold Cli.downStep
  cases hr : i.recv with
  | error => exact stop _ _ [] hpre (by simp)
  | wouldBlock =>
    simp only
    split
    · exact stop _ _ [] hpre (by simp)
    · exact go since
  | dgram src dg =>
    simp only
    split
    · exact stop _ _ [] hpre (by simp)
    · rename_i hopens
      split
      · exact go since
      · rename_i hsrc
        have hsrc : src = ep := by simpa using hsrc
        subst hsrc
        have hal := ha.2 src dg hr
        rw [hcl] at hal
        obtain ⟨p, hp, hpe, rfl, hage⟩ := (hal rfl).resolve_right fun hn => hopens (by rw [hn]; rfl)
        have a1 := k5 p hp hpe
        rw [← hroom] at a1
        have hWk := window_ok h hco.small hpay.1
        obtain ⟨ok, hok⟩ : ∃ ok : Bool, i.file = if ok then .all else .err := by
          rcases ha.1 with hio | hio
          · exact ⟨true, hio⟩
          · exact ⟨false, hio⟩
        rw [hok]
        obtain ⟨seen', r1, r2, r3, r4⟩ := link_recv (c := cf) (D := (v.srv.transfer c).codec.dec) (now := w.clock src) hbs0 hdec hR k3 k4
          (by rw [hbs]; exact htop1) hroom1 (by rw [hclock, k2.total, hbs]; rfl)
          (by rw [hbs]; exact hWk.imp (Nat.le_trans hco.window) id) (by rw [hbs]; exact a1)
          (by rw [hbs]; exact timely_of h hco.small hpay.1 hco.window hage) ok i.sendOk i.nonce
        have heq : recvRecv cf s (p.bytes.take room) (if ok then .all else .err) i.sendOk i.nonce = clientRecv cf s (p.bytes.take room) (if ok then .all else .err) i.sendOk i.nonce := by
          unfold recvRecv; rw [hrc]
        rw [heq] at r1 r3 r4
        have hfl := @clientRecv_failed cf s (p.bytes.take room) (if ok then .all else .err) i.sendOk i.nonce hx0
        generalize hres : clientRecv cf s (p.bytes.take room) (if ok then .all else .err) i.sendOk i.nonce = res at *
        obtain ⟨s', a⟩ := res
        simp only at r1 r3 r4 hfl ⊢
        have hpre' : s'.w.out <+: F src := by rw [r1.out]; exact List.take_prefix _ _
        have hout : ∀ d ∈ (a.map (·.bytes)).toList, AckFine (v.srv.transfer c).codec.dec (F src) c.opts.payload s'.w.written (w.clock src) d := by
          intro d hd
          simp only [Option.mem_toList, Option.map_eq_some_iff] at hd
          obtain ⟨x, hx, rfl⟩ := hd
          rw [← hbs]
          exact (r4 x hx).1
        split
        · rename_i hx'
          refine stop _ _ _ hpre' ?_
          intro d hd
          simp only [Option.mem_toList, Option.map_eq_some_iff] at hd
          obtain ⟨x, hx, rfl⟩ := hd
          obtain ⟨y, hy⟩ := hfl hx' hx
          rw [hdec] at hy
          exact (fine_of_error hy _ _ _ _).2
        · rename_i hx'
          have hx' : s'.failed = false := by simpa using hx'
          split
          · rename_i hf'
            refine ⟨s'.w.written, seen', fin _ _ _ _ r3 r1.seen hout r2 ⟨src, hb, ?_, ?_⟩⟩
            · rw [r1.total hx', r1.fin hf', bytesIn_nblocks _ _ _ hbs0 (Nat.le_refl _)]
            · exact out_eq_file hbs0 r1 (r1.fin hf')
          · rename_i hf'
            have hf' : s'.finished = false := by simpa using hf'
            exact ⟨s'.w.written, seen', fin _ _ _ _ r3 r1.seen hout r2
              ⟨hb, c, hc, hbs, hdec, hroom, hrc, hf', hx', r1, rfl⟩⟩

theorem tooLarge_error {c : Cfg} {i : Nat} {ok : Bool} {d : Bytes} (h : d ∈ c.tooLarge i ok) :
    c.codec.dec d = some (Packet.error .diskFull []).toBytes := by
  unfold Cfg.tooLarge at h
  split at h
  · simp only [Option.mem_toList, Option.map_eq_some_iff] at h
    obtain ⟨x, hx, rfl⟩ := h
    exact (emit_some hx).2
  · cases h

theorem down_query {v : Parties S} {late} (h : Honest v late) {ok} (hj : v.job.task = .download ok) {F bound wr seen w}
    (hi : DownInv v late F bound wr seen w) (hwh : Whence v w) {q} (hcl : w.cli = .query q) (i : CliIn)
    (ha : Allowed v late w (.client i)) : ∃ bound' wr' seen', DownInv v late F bound' wr' seen' (v.step w (.client i)) := by
  have hcli := hi.cli
  unfold DownCli at hcli
  rw [hcl] at hcli
  obtain ⟨rfl, he, hu, hroom⟩ := hcli
  have hstep : v.step w (.client i) = { w with
      cli := (v.cli.queryStep v.job q i).1
      up := (v.cli.queryStep v.job q i).2.map (fun x => ⟨x.1, x.2, w.clock x.1⟩) ++ w.up
      sent := (v.cli.queryStep v.job q i).1.confirmed w.sent } := by
    simp only [Parties.step, hcl, Cli.step]
  rw [hstep]
  -- it goes on asking, or gives up
  have keep : ∀ (st : CliSt) (out : List (Ep × Bytes)), ((∃ q', st = .query q' ∧ v.ReqExts q'.exts ∧ v.ReqExts q'.used ∧ q'.room = recvBuffer v.co.blockSize) ∨
        ∃ e, st = .done (.error e) []) →
      (∀ x ∈ out, x.1 = v.cli.cfg.endpoint ∧ v.IsReq x.2 ∨ ∃ c, w.conns x.1 = some c ∧
        AckFine (v.srv.transfer c).codec.dec (F x.1) c.opts.payload 0 (w.clock x.1) x.2) →
      ∃ bound' wr' seen', DownInv v late F bound' wr' seen' { w with
        cli := st
        up := out.map (fun x => ⟨x.1, x.2, w.clock x.1⟩) ++ w.up
        sent := st.confirmed w.sent } := by
    intro st out hst hout
    refine ⟨none, wr, seen, hi.client (w' := { w with
        cli := st
        up := out.map (fun x => ⟨x.1, x.2, w.clock x.1⟩) ++ w.up
        sent := st.confirmed w.sent }) rfl rfl rfl rfl rfl rfl ?_ (fun _ => Nat.le_refl _) (fun e c hc => (hi.conn e c hc).side) hi.le
        (fun _ hn => nomatch hn) ?_⟩
    · intro x hx
      rcases hout x hx with h1 | ⟨c, h1, h2⟩
      · exact .inl h1
      · exact .inr ⟨c, h1, by simpa using h2⟩
    · rcases hst with ⟨q', rfl, h1⟩ | ⟨e, rfl⟩
      · exact ⟨rfl, h1⟩
      · exact .inl ⟨rfl, rfl⟩
  unfold Cli.queryStep
  simp only
  cases hput : v.cli.put (v.cli.initialSock v.job.opts).1 i.nonce i.sendOk (v.job.request q.exts) with
  | none => exact keep _ [] (.inr ⟨_, rfl⟩) (by simp)
  | some req =>
    have hreq := put_isReq he hput
    have hout1 : ∀ x ∈ [(v.cli.cfg.endpoint, req)], x.1 = v.cli.cfg.endpoint ∧ v.IsReq x.2 ∨ ∃ c, w.conns x.1 = some c ∧
        AckFine (v.srv.transfer c).codec.dec (F x.1) c.opts.payload 0 (w.clock x.1) x.2 := by
      intro x hx
      simp only [List.mem_singleton] at hx
      subst hx
      exact .inl ⟨rfl, hreq⟩
    simp only
    cases hr : i.recv with
    | error => exact keep _ _ (.inr ⟨_, rfl⟩) hout1
    | wouldBlock =>
      simp only
      split
      · exact keep _ _ (.inr ⟨_, rfl⟩) hout1
      · exact keep _ _ (.inl ⟨_, rfl, he, hu, hroom⟩) hout1
    | dgram src d =>
      have hal := ha.2 src d hr
      rw [hcl] at hal
      obtain ⟨hdg, hacc⟩ := hal
      replace hacc := hacc.resolve_left fun hn => by
        have := hn.1
        unfold Job.write at this
        rw [hj] at this
        cases this
      replace hacc : ∀ b, v.sock.recv (d.take q.room) = some b → Answer b → (src, d) ∈ w.acc :=
        fun b hb hA => whence_answer h hwh hroom hdg hb hA (hacc b hb hA)
      simp only
      cases hb : (v.cli.initialSock v.job.opts).1.recv (d.take q.room) with
      | none => exact keep _ _ (.inr ⟨_, rfl⟩) hout1
      | some b =>
        obtain ⟨p, hp, hpe, hpd⟩ := hdg.resolve_right fun hn => by
          rw [show v.sock.recv (d.take q.room) = some b from hb] at hn
          cases hn
        have hip : src.ip = v.cli.cfg.endpoint.ip := by rw [← hpe]; exact (hi.downs p hp).1
        simp only
        rw [if_neg (by simpa using hip)]
        split
        · exact keep _ _ (.inr ⟨_, rfl⟩) hout1
        · by_cases hA : Answer b
          · obtain ⟨c, hc, hac⟩ := hi.acc _ (hacc b hb hA)
            simp only at hc hac
            have htake : d.take q.room = d := List.take_of_length_le (by rw [hroom]; exact hac.room)
            rw [htake] at hb
            obtain ⟨b', hb', hrep⟩ := hac.reply
            have hbb : b' = b := by
              have : v.sock.recv d = some b := hb
              rw [hb'] at this
              exact Option.some.inj this
            subst hbb
            have hrep := hrep q.used q.initial hu
            change match v.cli.reply v.job.write (v.cli.requestOpts v.job) q.used q.initial b' with
              | .accept _ o rk first => first = none ∧ Agreed v c o rk
              | .again => False
              | .fail _ ps => ∀ p ∈ ps, ∀ i ok d', v.cli.put v.sock i ok p = some d' → ∀ file bs n mark,
                  DataFine (v.srv.transfer c).codec.dec file bs n mark d' ∧ AckFine (v.srv.transfer c).codec.dec file bs n mark d' at hrep
            cases hrp : v.cli.reply v.job.write (v.cli.requestOpts v.job) q.used q.initial b' with
            | again => rw [hrp] at hrep; exact hrep.elim
            | fail e ps =>
              rw [hrp] at hrep
              refine keep _ _ (.inr ⟨_, rfl⟩) ?_
              intro x hx
              rcases List.mem_append.mp hx with hx | hx
              · exact hout1 x hx
              · obtain ⟨y, hy, rfl⟩ := List.mem_map.mp hx
                obtain ⟨p', hp', hy⟩ := List.mem_filterMap.mp hy
                exact .inr ⟨c, hc, (hrep p' hp' _ _ _ hy _ _ _ _).2⟩
            | accept ack o rk first =>
              rw [hrp] at hrep
              obtain ⟨rfl, hag⟩ := hrep
              have hco := hi.conn src c hc
              obtain ⟨ss, m, wd, hss, k2, k3, k4, k5⟩ := hco.side
              simp only [reduceCtorEq, if_false] at k3 k4
              have hbase : wd.base = 0 := by omega
              have hclock : w.clock src = 0 := by rw [clock_reader hc hss, k2.total, hbase]; simp [bytesIn]
              have hdd := hag.dec
              unfold Parties.sock at hdd
              generalize hcf : v.cli.cfgOf (v.cli.configure (v.cli.initialSock v.job.opts).1 (v.job.opts.level ≠ .none) o rk) o = cf at hdd
              have hemit : ∀ d', (cf.emit i.nonce2 (some 0) (.ack 0)) = some d' →
                  AckFine (v.srv.transfer c).codec.dec (F src) c.opts.payload 0 (w.clock src) d'.bytes := by
                intro d' hd'
                obtain ⟨-, e2⟩ := emit_some hd'
                rw [hdd] at e2
                rw [hclock]
                exact ackFine_zero e2 _ _ _
              have hlarge : ∀ d' ∈ cf.tooLarge i.nonce2 i.sendOk,
                  AckFine (v.srv.transfer c).codec.dec (F src) c.opts.payload 0 (w.clock src) d' := by
                intro d' hd'
                have := tooLarge_error hd'
                rw [hdd] at this
                exact (fine_of_error this _ _ _ _).2
              simp only
              unfold Cli.accepted
              simp only [hj, hcf]
              split
              · exact keep _ _ (.inr ⟨_, rfl⟩) (by simpa using hout1)
              · split
                · refine keep _ _ (.inr ⟨_, rfl⟩) ?_
                  intro x hx
                  rcases List.mem_append.mp hx with hx | hx
                  · exact hout1 x hx
                  · obtain ⟨y, hy, rfl⟩ := List.mem_map.mp hx
                    simp only [List.nil_append] at hy
                    exact .inr ⟨c, hc, hlarge y hy⟩
                · split
                  · exact keep _ _ (.inr ⟨_, rfl⟩) (by simpa using hout1)
                  · rename_i out' hhs
                    have hout' : ∀ d' ∈ out', AckFine (v.srv.transfer c).codec.dec (F src) c.opts.payload 0 (w.clock src) d' := by
                      intro d' hd'
                      split at hhs
                      · split at hhs
                        · simp only [Option.map_eq_some_iff] at hhs
                          obtain ⟨y, hy, rfl⟩ := hhs
                          simp only [List.mem_singleton] at hd'
                          subst hd'
                          exact hemit y hy
                        · cases hhs
                      · simp only [Option.some.injEq] at hhs
                        subst hhs
                        cases hd'
                    refine ⟨some src, 0, 0, hi.client rfl rfl rfl rfl rfl rfl ?_ (fun e => by simp) ?_ (Nat.le_refl _) ?_ ?_⟩
                    · intro x hx
                      rcases List.mem_append.mp hx with hx | hx
                      · rcases hout1 x hx with h1 | ⟨c, h1, h2⟩
                        · exact .inl h1
                        · exact .inr ⟨c, h1, by simpa using h2⟩
                      · obtain ⟨y, hy, rfl⟩ := List.mem_map.mp hx
                        exact .inr ⟨c, hc, by simpa using hout' y (by simpa using hy)⟩
                    · intro e x hx
                      have := (hi.conn e x hx).side
                      simpa using this
                    · intro e hee
                      simp only [Option.some.injEq] at hee
                      subst hee
                      rw [hc]; rfl
                    · refine ⟨rfl, c, hc, ?_, hdd, by rw [hag.block], ?_, rfl, rfl, RInv.init _ _, rfl⟩
                      · rw [← hcf]; exact hag.bs
                      · rw [← hcf]; rfl
          · rcases reply_other v.cli v.job.write (v.cli.requestOpts v.job) q.used q.initial hA with ⟨h1, h2⟩ | ⟨e, h1⟩
            · rw [h1]
              exact keep _ _ (.inl ⟨_, rfl, .inr ⟨h2, rfl⟩, .inr ⟨h2, rfl⟩, rfl⟩) hout1
            · rw [h1]
              exact keep _ _ (.inr ⟨_, rfl⟩) (by simpa using hout1)

theorem down_client {v : Parties S} {late} (h : Honest v late) {ok} (hj : v.job.task = .download ok) {F bound wr seen w}
    (hi : DownInv v late F bound wr seen w) (hwh : Whence v w) (i : CliIn) (ha : Allowed v late w (.client i)) :
    ∃ bound' wr' seen', DownInv v late F bound' wr' seen' (v.step w (.client i)) := by
  cases hcl : w.cli with
  | query q => exact down_query h hj hi hwh hcl i ha
  | down cf room ep s since auth => exact ⟨bound, down_down h hi hcl i ha⟩
  | up cf room ep s since auth =>
    have hcli := hi.cli
    unfold DownCli at hcli
    rw [hcl] at hcli
    exact hcli.elim
  | done r f =>
    have hw : v.step w (.client i) = { w with sent := (CliSt.done r f).confirmed w.sent } := by
      simp only [Parties.step, hcl, Cli.step, List.map_nil, List.nil_append]
    rw [hw]
    refine ⟨bound, wr, seen, hi.ups, hi.downs, hi.acc, hi.live, ?_, hi.le, hi.tied, ?_⟩
    · intro e c hc
      obtain ⟨b1, b2, b3, b4, b5, b6, b7⟩ := hi.conn e c hc
      exact ⟨b1, b2, b3, b4, b5, b6, b7⟩
    · exact hi.cli.congr rfl hi.tied fun e c hc => ⟨rfl, c, hc, rfl, rfl⟩

theorem down_init (v : Parties S) (late : Option Nat) (t : Nat) : DownInv v late (fun _ => []) none 0 0 (v.init t) := by
  refine ⟨(fun _ h => nomatch h), (fun _ h => nomatch h), (fun _ h => nomatch h), (fun _ h => nomatch h),
    (fun _ _ h => nomatch h), Nat.le_refl _, (fun _ h => nomatch h), ?_⟩
  exact ⟨rfl, .inl rfl, .inl rfl, rfl⟩

theorem down_reach_whence {v : Parties S} {late} (h : Honest v late) {ok} (hj : v.job.task = .download ok) {w} (hr : Reach v late w) :
    (∃ F bound wr seen, DownInv v late F bound wr seen w) ∧ Whence v w := by
  induction hr with
  | init t => exact ⟨⟨_, none, 0, 0, down_init v late t⟩, whence_init v t⟩
  | step w e _ ha ih =>
    obtain ⟨⟨F, bound, wr, seen, hi⟩, hwh⟩ := ih
    cases e with
    | server ep e =>
      obtain ⟨F', _, h'⟩ := down_server h hj hi ep e ha
      exact ⟨⟨F', bound, wr, seen, h'⟩, whence_server hwh hi.ups ep e ha⟩
    | client i => exact ⟨⟨F, down_client h hj hi hwh i ha⟩, whence_client hwh i⟩

theorem down_reach {v : Parties S} {late} (h : Honest v late) {ok} (hj : v.job.task = .download ok) {w} (hr : Reach v late w) :
    ∃ F bound wr seen, DownInv v late F bound wr seen w := (down_reach_whence h hj hr).1

/-- The server opened the file `file` for a connection at `e`, for the name in the request. -/
def Spec.Served (v : Parties S) (w : World) (e : Ep) (file : Bytes) : Prop :=
  ∃ name io size, normalizeName v.job.name = some name ∧ (e, io) ∈ w.started ∧ io.openRead name = some (size, file)

/-- What the client has stored. -/
def Spec.stored : CliSt → Bytes
  | .down _ _ _ s _ _ => s.w.out
  | .done _ f => f
  | _ => []

/-- **C53.** A download, from the first request to the end, over a network which loses, repeats and reorders datagrams: what the
client has stored is at any time an initial part of a file which the server opened for it; if the client reports success, it has
stored this whole file and reports its length; and if the server regards a connection as complete, the client has
reported success and stored the whole file of this connection. -/
theorem c53_download {v : Parties S} {late} (h : Honest v late) {ok} (hj : v.job.task = .download ok) {w} (hr : Reach v late w) :
    (stored w.cli = [] ∨ ∃ e file, Served v w e file ∧ stored w.cli <+: file) ∧
    (∀ k auth f, w.cli = .done (.ok (k, auth)) f → ∃ e, Served v w e f ∧ k = f.length) ∧
    (∀ e c, w.conns e = some c → ∃ s, c.side = .reader s ∧
      (s.finished = true → ∃ k auth f, w.cli = .done (.ok (k, auth)) f ∧ Served v w e f ∧ s.total = f.length)) := by
  obtain ⟨F, bound, wr, seen, hi⟩ := down_reach h hj hr
  have hcli := hi.cli
  have served : ∀ e, bound = some e → Served v w e (F e) := by
    intro e hb
    obtain ⟨c, hc⟩ := Option.isSome_iff_exists.mp (hi.tied e hb)
    exact (hi.conn e c hc).opened
  refine ⟨?_, ?_, ?_⟩
  · unfold DownCli at hcli
    cases hcl : w.cli with
    | query q => exact .inl rfl
    | up cf room ep s since auth => exact .inl rfl
    | down cf room ep s since auth =>
      rw [hcl] at hcli
      obtain ⟨hb, c, -, -, -, -, -, -, -, hR, -⟩ := hcli
      exact .inr ⟨ep, F ep, served ep hb, by show s.w.out <+: _; rw [hR.out]; exact List.take_prefix _ _⟩
    | done r f =>
      rw [hcl] at hcli
      cases r with
      | ok x =>
        obtain ⟨e, hb, -, rfl⟩ := hcli
        exact .inr ⟨e, F e, served e hb, List.prefix_refl _⟩
      | error x =>
        rcases hcli with ⟨-, rfl⟩ | ⟨e, c, hb, -, hf, -⟩
        · exact .inl rfl
        · exact .inr ⟨e, F e, served e hb, hf⟩
  · intro k auth f hd
    unfold DownCli at hcli
    rw [hd] at hcli
    obtain ⟨e, hb, rfl, rfl⟩ := hcli
    exact ⟨e, served e hb, rfl⟩
  · intro e c hc
    have hco := hi.conn e c hc
    obtain ⟨s, m, wd, hs, k2, k3, k4, -⟩ := hco.side
    refine ⟨s, hs, fun hf => ?_⟩
    have hpay := payload_471 hco.block
    have hfin : wd.base = nblocks (F e) c.opts.payload := k2.fin hf
    have htop : wd.top ≤ nblocks (F e) c.opts.payload := k2.sim.inv.top_le
    have hpos : 0 < nblocks (F e) c.opts.payload := Nat.succ_pos _
    by_cases hb : bound = some e
    · rw [if_pos hb] at k3 k4
      have hwr : wr = nblocks (F e) c.opts.payload := by have := hi.le; omega
      have htot : s.total = (F e).length := by
        rw [k2.total, hfin]
        exact bytesIn_nblocks _ _ _ (by show 0 < c.opts.payload; omega) (Nat.le_refl _)
      unfold DownCli at hcli
      cases hcl : w.cli with
      | query q => rw [hcl] at hcli; rw [hcli.1] at hb; cases hb
      | up cf room ep s since auth => rw [hcl] at hcli; exact hcli.elim
      | down cf room ep s since auth =>
        rw [hcl] at hcli
        obtain ⟨hb', c', hc', hbs, -, -, -, hf0, hx0, hR, hw⟩ := hcli
        rw [hb] at hb'; cases hb'
        rw [hc] at hc'; cases hc'
        have := hR.done (by rw [hw, hbs]; exact hwr)
        rw [hf0, hx0] at this
        simp at this
      | done r f =>
        rw [hcl] at hcli
        cases r with
        | ok x =>
          obtain ⟨e', hb', -, rfl⟩ := hcli
          rw [hb] at hb'; cases hb'
          exact ⟨x.1, x.2, F e, rfl, served e hb, htot⟩
        | error x =>
          rcases hcli with ⟨hn, -⟩ | ⟨e', c', hb', hc', -, hlt⟩
          · rw [hb] at hn; cases hn
          · rw [hb] at hb'; cases hb'
            rw [hc] at hc'; cases hc'
            omega
    · rw [if_neg hb] at k3
      omega

end Tftp

import Verif.EndFirst
/-
C52: a whole upload, from the first request to the result, with the real client and the real server.
-/
namespace Tftp
open Spec

variable {S : SigScheme}

/-! ### The invariant -/

/-- What is known of a connection: `near`: the client may still choose it, or has. -/
structure UpConn (v : Parties S) (file : Bytes) (near : Prop) (base top : Nat) (w : World) (e : Ep) (c : Conn) : Prop where
  block : 512 ≤ c.opts.blockSize
  place : e = v.cli.cfg.endpoint → ∀ n mark,
    (∀ d, v.IsReq d → DataFine (v.srv.transfer c).codec.dec file c.opts.payload n mark d) ∧
    ∀ d, v.Refusal d → AckFine (v.srv.transfer c).codec.dec file c.opts.payload n mark (d.take (recvBuffer c.opts.blockSize))
  side : ∃ s seen, c.side = .writer s ∧ RInv (v.srv.transfer c) file seen s ∧ base ≤ s.w.written ∧ seen ≤ top ∧
    ∀ p ∈ w.down, p.ep = e → near →
      AckFine (v.srv.transfer c).codec.dec file c.opts.payload s.w.written p.mark (p.bytes.take (recvBuffer c.opts.blockSize))
  up : ∀ p ∈ w.up, p.ep = e → DataFine (v.srv.transfer c).codec.dec file c.opts.payload top p.mark p.bytes

/-- What is known of the client. -/
def UpCli (v : Parties S) (file : Bytes) (bound : Option Ep) (base top : Nat) (w : World) : Prop :=
  match w.cli with
  | .query q => bound = none ∧ v.ReqExts q.exts ∧ v.ReqExts q.used ∧ q.room = recvBuffer v.co.blockSize
  | .up cf room ep s _ _ => bound = some ep ∧ ∃ c, w.conns ep = some c ∧ cf.bs = c.opts.payload ∧
      cf.codec.dec = (v.srv.transfer c).codec.dec ∧ room = recvBuffer c.opts.blockSize ∧ cf.sender = .client ∧
      cf.W ≤ v.job.opts.window ∧ cf.bs ≤ cf.cap ∧ s.finished = false ∧ s.failed = false ∧
      ∃ m wd, SInv cf file m wd s ∧ wd.base = base ∧ wd.top = top
  | .down _ _ _ _ _ _ => False
  | .done (.ok (n, _)) _ => n = file.length ∧ ∃ e c, bound = some e ∧ w.conns e = some c ∧ base = nblocks file c.opts.payload
  | .done (.error _) _ => True

structure UpInv (v : Parties S) (file : Bytes) (bound : Option Ep) (base top : Nat) (w : World) : Prop where
  ups : ∀ p ∈ w.up, (w.conns p.ep).isSome ∨ p.ep = v.cli.cfg.endpoint ∧ v.IsReq p.bytes
  downs : ∀ p ∈ w.down, p.ep.ip = v.cli.cfg.endpoint.ip ∧ ((w.conns p.ep).isSome ∨ p.ep = v.cli.cfg.endpoint ∧ v.Refusal p.bytes)
  acc : ∀ x ∈ w.acc, ∃ c, w.conns x.1 = some c ∧ Accepts v c x.2
  live : ∀ l, w.live = some l → (w.conns l).isSome ∧ l.ip = v.cli.cfg.endpoint.ip
  conn : ∀ e c, w.conns e = some c →
    UpConn v file (bound = none ∨ bound = some e) (if bound = some e then base else 0) (if bound = some e then top else 0) w e c
  free : bound = none → w.sent = 0
  tied : ∀ e, bound = some e → ∃ c, w.conns e = some c ∧ w.sent = bytesIn file c.opts.payload base ∧
    top ≤ nblocks file c.opts.payload ∧ top - base ≤ v.job.opts.window
  cli : UpCli v file bound base top w

theorem UpCli.congr {v : Parties S} {file bound base top w w'} (h : UpCli v file bound base top w) (hc : w'.cli = w.cli)
    (hs : ∀ e c, w.conns e = some c → ∃ c', w'.conns e = some c' ∧ c'.opts = c.opts ∧ c'.enc = c.enc) :
    UpCli v file bound base top w' := by
  unfold UpCli at *
  rw [hc]
  split at h
  · exact h
  · obtain ⟨h1, c, h2, h3, h4, h5, h6⟩ := h
    obtain ⟨c', g1, g2, g3⟩ := hs _ _ h2
    rw [← g2] at h3 h5
    rw [← transfer_eq v.srv g2 g3] at h4
    exact ⟨h1, c', g1, h3, h4, h5, h6⟩
  · exact h
  · obtain ⟨h1, e, c, h2, h3, h4⟩ := h
    obtain ⟨c', g1, g2, g3⟩ := hs _ _ h3
    rw [← g2] at h4
    exact ⟨h1, e, c', h2, g1, h4⟩
  · trivial

/-- A step of the live connection. -/
theorem UpInv.server {v : Parties S} {file bound base top w} (h : UpInv v file bound base top w) {l : Ep} {c c' : Conn} {s s' : RecvSt}
    {seen' : Nat} {out : List Bytes} {w' : World} (hl : w.conns l = some c) (ho : c'.opts = c.opts) (he : c'.enc = c.enc)
    (hlip : l.ip = v.cli.cfg.endpoint.ip)
    (hs : c.side = .writer s) (hs' : c'.side = .writer s') (hr : RInv (v.srv.transfer c) file seen' s')
    (hwr : s.w.written ≤ s'.w.written) (hseen : seen' ≤ if bound = some l then top else 0)
    (hout : ∀ d ∈ out, d.length ≤ recvBuffer c.opts.blockSize ∧ (bound = none ∨ bound = some l →
      AckFine (v.srv.transfer c).codec.dec file c.opts.payload s'.w.written (w.clock l) d))
    (e1 : w'.conns = setAt w.conns l c') (e2 : w'.live = w.live ∨ w'.live = none) (e3 : w'.cli = w.cli) (e4 : w'.up = w.up)
    (e5 : w'.down = out.map (⟨l, ·, w.clock l⟩) ++ w.down) (e6 : w'.acc = w.acc) (e7 : w'.sent = w.sent) :
    UpInv v file bound base top w' := by
  have ht := transfer_eq v.srv ho he
  have hkeep : ∀ e x, w.conns e = some x → ∃ x', w'.conns e = some x' ∧ x'.opts = x.opts ∧ x'.enc = x.enc := by
    intro e x hx
    rw [e1]
    by_cases hel : e = l
    · subst hel
      rw [hl] at hx; cases hx
      exact ⟨c', setAt_same _ _ _, ho, he⟩
    · exact ⟨x, by rw [setAt_other hel]; exact hx, rfl, rfl⟩
  have hsome : ∀ e, (w.conns e).isSome → (w'.conns e).isSome := by
    intro e hx
    obtain ⟨x, hx⟩ := Option.isSome_iff_exists.mp hx
    obtain ⟨x', h1, -⟩ := hkeep e x hx
    rw [h1]; rfl
  refine ⟨?_, ?_, ?_, ?_, ?_, ?_, ?_, ?_⟩
  · rw [e4]; intro p hp; exact (h.ups p hp).imp (hsome _) id
  · rw [e5]
    intro p hp
    rcases List.mem_append.mp hp with hp | hp
    · obtain ⟨d, -, rfl⟩ := List.mem_map.mp hp
      exact ⟨hlip, .inl (by rw [e1, setAt_same]; rfl)⟩
    · exact ⟨(h.downs p hp).1, (h.downs p hp).2.imp (hsome _) id⟩
  · rw [e6]
    intro x hx
    obtain ⟨y, h1, h2⟩ := h.acc x hx
    obtain ⟨y', g1, g2, g3⟩ := hkeep _ _ h1
    exact ⟨y', g1, h2.congr g2 g3⟩
  · intro l' hl'
    rcases e2 with e2 | e2
    · rw [e2] at hl'
      exact ⟨hsome _ (h.live l' hl').1, (h.live l' hl').2⟩
    · rw [e2] at hl'; cases hl'
  · intro e x hx
    rw [e1] at hx
    by_cases hel : e = l
    · subst hel
      rw [setAt_same] at hx; cases hx
      obtain ⟨b1, b2, ⟨s0, seen0, c1, c2, c3, c4, c5⟩, b4⟩ := h.conn e c hl
      rw [c1] at hs; cases hs
      refine ⟨by rw [ho]; exact b1, by rw [ht, ho]; exact b2, ⟨s', seen', hs', by rw [ht]; exact hr, Nat.le_trans c3 hwr, hseen, ?_⟩, ?_⟩
      · rw [e5, ht, ho]
        intro p hp hpe hn
        rcases List.mem_append.mp hp with hp | hp
        · obtain ⟨d, hd, rfl⟩ := List.mem_map.mp hp
          rw [List.take_of_length_le (hout d hd).1]
          exact (hout d hd).2 hn
        · exact (c5 p hp hpe hn).mono hwr
      · rw [e4, ht, ho]; exact b4
    · rw [setAt_other hel] at hx
      obtain ⟨b1, b2, ⟨s0, seen0, c1, c2, c3, c4, c5⟩, b4⟩ := h.conn e x hx
      refine ⟨b1, b2, ⟨s0, seen0, c1, c2, c3, c4, ?_⟩, by rw [e4]; exact b4⟩
      rw [e5]
      intro p hp hpe hn
      rcases List.mem_append.mp hp with hp | hp
      · obtain ⟨d, hd, rfl⟩ := List.mem_map.mp hp
        exact absurd hpe.symm hel
      · exact c5 p hp hpe hn
  · rw [e7]; exact h.free
  · intro e hb
    obtain ⟨x, h1, h2⟩ := h.tied e hb
    obtain ⟨x', g1, g2, -⟩ := hkeep _ _ h1
    exact ⟨x', g1, by rw [e7, g2]; exact h2⟩
  · exact h.cli.congr e3 hkeep

/-- A step of the client. -/
theorem UpInv.client {v : Parties S} {file bound base top w} (h : UpInv v file bound base top w) {bound' : Option Ep} {base' top' : Nat}
    {out : List (Ep × Bytes)} {w' : World}
    (e1 : w'.conns = w.conns) (e2 : w'.live = w.live) (e4 : w'.up = out.map (fun x => ⟨x.1, x.2, w.clock x.1⟩) ++ w.up)
    (e5 : w'.down = w.down) (e6 : w'.acc = w.acc)
    (hout : ∀ x ∈ out, x.1 = v.cli.cfg.endpoint ∧ v.IsReq x.2 ∨ ∃ c, w.conns x.1 = some c ∧
      DataFine (v.srv.transfer c).codec.dec file c.opts.payload (if bound' = some x.1 then top' else 0) (w.clock x.1) x.2)
    (hb : ∀ e, bound = some e → bound' = some e)
    (hbase : ∀ e c s, w.conns e = some c → c.side = .writer s → bound' = some e → base' ≤ s.w.written)
    (htop : ∀ e, (if bound = some e then top else 0) ≤ if bound' = some e then top' else 0)
    (hfree : bound' = none → w'.sent = 0)
    (htied : ∀ e, bound' = some e → ∃ c, w.conns e = some c ∧ w'.sent = bytesIn file c.opts.payload base' ∧
      top' ≤ nblocks file c.opts.payload ∧ top' - base' ≤ v.job.opts.window)
    (hcli : UpCli v file bound' base' top' w') : UpInv v file bound' base' top' w' := by
  refine ⟨?_, by rw [e5, e1]; exact h.downs, by rw [e6, e1]; exact h.acc, by rw [e2, e1]; exact h.live, ?_, hfree, by rw [e1]; exact htied, hcli⟩
  · rw [e4, e1]
    intro p hp
    rcases List.mem_append.mp hp with hp | hp
    · obtain ⟨x, hx, rfl⟩ := List.mem_map.mp hp
      rcases hout x hx with h1 | ⟨c, h1, -⟩
      · exact .inr h1
      · left
        show (w.conns x.1).isSome
        rw [h1]; rfl
    · exact h.ups p hp
  · rw [e1]
    intro e c hc
    obtain ⟨b1, b2, ⟨s, seen, c1, c2, c3, c4, c5⟩, b4⟩ := h.conn e c hc
    refine ⟨b1, b2, ⟨s, seen, c1, c2, ?_, Nat.le_trans c4 (htop e), ?_⟩, ?_⟩
    · split
      · rename_i hbe; exact hbase e c s hc c1 hbe
      · omega
    · rw [e5]
      intro p hp hpe hn
      apply c5 p hp hpe
      cases hbd : bound with
      | none => exact .inl rfl
      | some x =>
        right
        have := hb x hbd
        rcases hn with hn | hn
        · rw [hn] at this; cases this
        · rw [hn] at this; exact this.symm
    · rw [e4]
      intro p hp hpe
      rcases List.mem_append.mp hp with hp | hp
      · obtain ⟨x, hx, rfl⟩ := List.mem_map.mp hp
        rcases hout x hx with ⟨h1, h2⟩ | ⟨c', h1, h2⟩
        · exact (b2 (hpe.symm.trans h1) _ _).1 _ h2
        · simp only at hpe
          subst hpe
          rw [hc] at h1; cases h1
          exact h2
      · exact (b4 p hp hpe).mono (htop e)

/-! ### The server's steps -/

theorem UpInv.writer {v : Parties S} {file bound base top w} (h : UpInv v file bound base top w) {e c} (hc : w.conns e = some c) :
    ∃ s, c.side = .writer s ∧ w.clock e = w.sent := by
  obtain ⟨s, seen, h1, -⟩ := (h.conn e c hc).side
  exact ⟨s, h1, by simp only [World.clock, hc, World.clockOf, h1]⟩

theorem step_live {v : Parties S} {w : World} {l : Ep} {c : Conn} (hl : w.live = some l) (hc : w.conns l = some c) (ep : Ep) (e : LifeEv) :
    v.step w (.server ep e) =
      match (v.srv.lifeStep v.stops (some c) e).1 with
      | some c' => { w with
          conns := setAt w.conns l c'
          down := (v.srv.lifeStep v.stops (some c) e).2.map (⟨l, ·, w.clock l⟩) ++ w.down }
      | none => { w with live := none, down := (v.srv.lifeStep v.stops (some c) e).2.map (⟨l, ·, w.clock l⟩) ++ w.down } := by
  simp only [Parties.step, hl, hc]
  cases (v.srv.lifeStep v.stops (some c) e).1 <;> rfl

theorem step_dead {v : Parties S} {w : World} {l : Ep} (hl : w.live = some l) (hc : w.conns l = none) (ep : Ep) (e : LifeEv) :
    v.step w (.server ep e) = w := by
  simp only [Parties.step, hl, hc]

theorem step_idle {v : Parties S} {w : World} (hl : w.live = none) (ep : Ep) (e : LifeEv) (he : v.srv.lifeStep v.stops none e = (none, [])) :
    v.step w (.server ep e) = w := by
  simp only [Parties.step, hl, he, List.map_nil, List.nil_append]
  cases w
  cases hl
  rfl

theorem up_server {v : Parties S} {late} (h : Honest v late) {n file} (hj : v.job.task = .upload n file) {bound base top w}
    (hi : UpInv v file bound base top w) (ep : Ep) (e : LifeEv) (ha : Allowed v late w (.server ep e)) :
    UpInv v file bound base top (v.step w (.server ep e)) := by
  have hfile : late = none → file.length ≤ 26000000 := by
    have := h.task
    rw [hj] at this
    exact this.2
  have hwrite : v.job.write = true := by unfold Job.write; rw [hj]
  cases hlive : w.live with
  | some l =>
    cases hc : w.conns l with
    | none => rw [step_dead hlive hc]; exact hi
    | some c =>
      rw [step_live hlive hc]
      obtain ⟨s, hs, hclock⟩ := hi.writer hc
      have hco := hi.conn l c hc
      obtain ⟨s0, seen, k1, k2, k3, k4, k5⟩ := hco.side
      rw [hs] at k1; cases k1
      have hlip := (hi.live l hlive).2
      -- the connection is as before
      have same : ∀ (lv : Option Ep) (out : List Bytes), lv = w.live ∨ lv = none → (∀ d ∈ out, ∃ i x, (v.srv.transfer c).codec.enc i (Packet.error x []).toBytes = some d) →
          UpInv v file bound base top { w with live := lv, down := out.map (⟨l, ·, w.clock l⟩) ++ w.down } := by
        intro lv out hlv hout
        refine hi.server (c' := c) (out := out) hc rfl rfl hlip hs hs k2 (Nat.le_refl _) k4 ?_ (setAt_self hc).symm hlv rfl rfl rfl rfl rfl
        intro d hd
        obtain ⟨i, x, hx⟩ := hout d hd
        refine ⟨enc_length v.srv c hco.block hx (.inr (.inr ⟨x, rfl⟩)), fun _ => ?_⟩
        exact (fine_of_error ((v.srv.transfer c).codec.dec_enc _ _ _ hx) _ _ _ _).2
      have quiet : UpInv v file bound base top { w with conns := setAt w.conns l c, down := ([] : List Pkt) ++ w.down } := by
        rw [setAt_self hc]
        exact hi
      cases e with
      | start t dg io => exact quiet
      | tick t io =>
        simp only [Srv.lifeStep]
        have hact : c.active = false := by simp [Conn.active, hs]
        rw [hact, if_neg (by simp)]
        exact quiet
      | drop => exact same none [] (.inr rfl) (by simp)
      | check t io =>
        simp only [Srv.lifeStep]
        have herr : ∀ d ∈ (v.srv.timeout c t io).2.toList, ∃ i x, (v.srv.transfer c).codec.enc i (Packet.error x []).toBytes = some d := by
          intro d hd
          simp only [Option.mem_toList] at hd
          unfold Srv.timeout at hd
          split at hd
          · cases hd
          · split at hd
            · cases hd
            · simp only at hd
              split at hd
              · exact ⟨_, _, hd⟩
              · cases hd
        by_cases ht : (v.srv.timeout c t io).1 = true
        · simp only [ht, if_true]
          exact same none _ (.inr rfl) herr
        · simp only [ht, Bool.false_eq_true, if_false]
          rw [setAt_self hc]
          exact same w.live _ (.inl rfl) herr
      | recv t dg io =>
        obtain ⟨hdg, hio⟩ := ha l hlive
        simp only [Srv.lifeStep]
        by_cases hdeaf : (v.stops && c.deaf) = true
        · rw [if_pos hdeaf]
          exact quiet
        · rw [if_neg hdeaf]
          rcases hdg with ⟨p, hp, hpe, rfl, hage⟩ | hforged
          case inr =>
            rw [handle_forged v.srv c t dg io (hforged c hc)]
            exact quiet
          have hd := hco.up p hp hpe
          obtain ⟨ok, hok⟩ : ∃ ok : Bool, io.file = if ok then .all else .err := by
            rcases hio with hio | hio
            · exact ⟨true, hio⟩
            · exact ⟨false, hio⟩
          have hpay := payload_471 hco.block
          have hbs : 0 < (v.srv.transfer c).bs := by show 0 < c.opts.payload; omega
          have hstep : ∃ seen', RInv (v.srv.transfer c) file seen' (serverRecv (v.srv.transfer c) s p.bytes io.file io.sendOk io.nonce).1 ∧
              seen' ≤ (if bound = some l then top else 0) ∧
              s.w.written ≤ (serverRecv (v.srv.transfer c) s p.bytes io.file io.sendOk io.nonce).1.w.written ∧
              (∀ d, (serverRecv (v.srv.transfer c) s p.bytes io.file io.sendOk io.nonce).2 = some d →
                (bound = none ∨ bound = some l → AckFine (v.srv.transfer c).codec.dec file c.opts.payload
                  (serverRecv (v.srv.transfer c) s p.bytes io.file io.sendOk io.nonce).1.w.written (w.clock l) d.bytes) ∧
                ∃ p, (v.srv.transfer c).emit io.nonce d.tag p = some d ∧ ((∃ b, p = .ack b) ∨ ∃ e, p = .error e [])) := by
            by_cases hb : bound = some l
            · rw [if_pos hb] at hd k4 k3 ⊢
              obtain ⟨c2, hc2, t1, t2, t3⟩ := hi.tied l hb
              rw [hc] at hc2; cases hc2
              obtain ⟨seen', r1, r2, r3, r4⟩ := link_recv (c := v.srv.transfer c) (now := w.clock l) hbs rfl k2 k3 k4 t2 t3 (by rw [hclock]; exact t1)
                (window_ok h hfile hpay.1) hd (timely_of h hfile hpay.1 (Nat.le_refl _) hage) ok io.sendOk io.nonce
              rw [hok]
              exact ⟨seen', r1, r2, r3, fun d hd => ⟨fun _ => (r4 d hd).1, (r4 d hd).2⟩⟩
            · rw [if_neg hb] at hd k4 k3 ⊢
              obtain ⟨seen', r1, r2, r3, r4⟩ := link_recv (c := v.srv.transfer c) (W := 0) (late := 0) (now := 0) (mark := 0) hbs rfl k2 k3 k4
                (Nat.zero_le _) (by omega) (by simp [bytesIn]) (.inl (by omega)) hd.anyMark (.inr ⟨by omega, by simp⟩) ok io.sendOk io.nonce
              rw [hok]
              refine ⟨seen', r1, r2, r3, fun d hd => ⟨fun hn => ?_, (r4 d hd).2⟩⟩
              rcases hn with hn | hn
              · rw [hclock, hi.free hn]; exact (r4 d hd).1
              · exact absurd hn hb
          obtain ⟨seen', r1, r2, r3, r4⟩ := hstep
          refine hi.server (c' := (v.srv.handle c t p.bytes io).1) (out := (v.srv.handle c t p.bytes io).2.toList) (s := s)
            (s' := (serverRecv (v.srv.transfer c) s p.bytes io.file io.sendOk io.nonce).1) hc ?_ ?_ hlip hs ?_ r1 r3 r2 ?_ rfl (.inl rfl) rfl rfl rfl rfl rfl
          · simp only [Srv.handle, hs]
          · simp only [Srv.handle, hs]
          · simp only [Srv.handle, hs]
          · intro d hd
            simp only [Srv.handle, hs, Option.mem_toList, Option.map_eq_some_iff] at hd
            obtain ⟨x, hx, rfl⟩ := hd
            obtain ⟨g1, q, g2, g3⟩ := r4 x hx
            refine ⟨enc_length v.srv c hco.block (emit_enc g2) ?_, g1⟩
            rcases g3 with ⟨b, rfl⟩ | ⟨x, rfl⟩
            · exact .inr (.inl ⟨b, rfl⟩)
            · exact .inr (.inr ⟨x, rfl⟩)
  | none =>
    cases e with
    | tick t io | recv t dg io | check t io | drop => rw [step_idle hlive ep _ rfl]; exact hi
    | start t dg io =>
      obtain ⟨⟨p, hp, hpe, rfl⟩, hasks, ⟨hip, hnew⟩, hos, hcross⟩ := ha hlive
      by_cases hreq : v.srv.requestOf p.bytes = none
      · rw [step_idle hlive ep _ (by simp only [Srv.lifeStep, newConn_other hreq])]; exact hi
      replace hreq : v.IsReq p.bytes := by
        cases hm : (w.conns v.cli.cfg.endpoint).isSome with
        | true => exact hasks hm hreq
        | false =>
          rcases hi.ups p hp with g | g
          · rw [hpe, hm] at g; cases g
          · exact g.2
      unfold Parties.step
      simp only [hlive, Srv.lifeStep]
      cases hres : (v.srv.newConn t p.bytes io).result with
      | error x =>
        simp only
        refine ⟨hi.ups, ?_, hi.acc, ?_, ?_, hi.free, hi.tied, hi.cli.congr rfl fun e c hc => ⟨c, hc, rfl, rfl⟩⟩
        · intro q hq
          rcases List.mem_append.mp hq with hq | hq
          · obtain ⟨d, hd, rfl⟩ := List.mem_map.mp hq
            exact ⟨rfl, .inr ⟨rfl, t, p.bytes, io, hreq, hd⟩⟩
          · exact hi.downs q hq
        · intro l hl; cases hl
        · intro e c hc
          obtain ⟨b1, b2, ⟨s, seen, c1, c2, c3, c4, c5⟩, b4⟩ := hi.conn e c hc
          refine ⟨b1, b2, ⟨s, seen, c1, c2, c3, c4, ?_⟩, b4⟩
          intro q hq hqe hn
          rcases List.mem_append.mp hq with hq | hq
          · obtain ⟨d, hd, rfl⟩ := List.mem_map.mp hq
            exact (b2 hqe.symm _ _).2 d ⟨t, p.bytes, io, hreq, hd⟩
          · exact c5 q hq hqe hn
      | ok y =>
        obtain ⟨c, out⟩ := y
        simp only
        obtain ⟨n1, n2, n3, ⟨name, -, n5⟩, n6⟩ := new_conn h hos hreq hres (fun hl => (hcross c out hres hl).1)
        rw [hwrite, if_pos rfl] at n5
        have hb : bound ≠ some ep := by
          intro hb
          obtain ⟨x, hx, -⟩ := hi.tied ep hb
          rw [hnew] at hx; cases hx
        have hold : ∀ e x, w.conns e = some x → e ≠ ep := by
          rintro e x hx rfl
          rw [hnew] at hx; cases hx
        have hkeep : ∀ e x, w.conns e = some x → setAt w.conns ep c e = some x := by
          intro e x hx
          rw [setAt_other (hold e x hx)]; exact hx
        have hsome : ∀ e, (w.conns e).isSome → (setAt w.conns ep c e).isSome := by
          intro e hx
          obtain ⟨x, hx⟩ := Option.isSome_iff_exists.mp hx
          rw [hkeep e x hx]; rfl
        have hclk : w.clockOf c = w.sent := by simp only [World.clockOf, n5.2]
        have stray : ep = v.cli.cfg.endpoint → ∀ n mark,
            (∀ d, v.IsReq d → DataFine (v.srv.transfer c).codec.dec file c.opts.payload n mark d) ∧
            ∀ d, v.Refusal d → AckFine (v.srv.transfer c).codec.dec file c.opts.payload n mark (d.take (recvBuffer c.opts.blockSize)) := by
          intro hx n mark
          obtain ⟨f1, f2⟩ := stray_fine h hreq hres (fun hl => (hcross c out hres hl).2 hx) file c.opts.payload n mark
          exact ⟨fun d hd => (f1 d hd).1, fun d hd => (f2 d hd _).2⟩
        refine ⟨fun q hq => (hi.ups q hq).imp (hsome _) id, ?_, ?_, ?_, ?_, hi.free, ?_, ?_⟩
        · intro q hq
          rcases List.mem_append.mp hq with hq | hq
          · obtain ⟨d, -, rfl⟩ := List.mem_map.mp hq
            exact ⟨hip, .inl (by simp only [setAt_same]; rfl)⟩
          · exact ⟨(hi.downs q hq).1, (hi.downs q hq).2.imp (hsome _) id⟩
        · intro x hx
          rcases List.mem_append.mp hx with hx | hx
          · obtain ⟨d, hd, rfl⟩ := List.mem_map.mp hx
            exact ⟨c, setAt_same _ _ _, n6 d hd⟩
          · obtain ⟨y, h1, h2⟩ := hi.acc x hx
            exact ⟨y, hkeep _ _ h1, h2⟩
        · intro l hl
          simp only [Option.some.injEq] at hl
          subst hl
          exact ⟨by simp only [setAt_same]; rfl, hip⟩
        · intro e x hx
          by_cases hee : e = ep
          · subst hee
            simp only [setAt_same, Option.some.injEq] at hx
            subst hx
            rw [if_neg hb, if_neg hb]
            refine ⟨n1.1, stray, ⟨_, 0, n5.2, RInv.init _ _, Nat.zero_le _, Nat.le_refl _, ?_⟩, ?_⟩
            · intro q hq hqe hn
              rcases List.mem_append.mp hq with hq | hq
              · obtain ⟨d, hd, rfl⟩ := List.mem_map.mp hq
                have hA := n6 d hd
                rw [List.take_of_length_le hA.room']
                rcases hn with hn | hn
                · simp only [hclk, hi.free hn]
                  exact (hA.fine _ _ _).2
                · exact absurd hn hb
              · rcases (hi.downs q hq).2 with this | ⟨hx, this⟩
                · rw [hqe, hnew] at this; cases this
                · exact (stray (hqe.symm.trans hx) _ _).2 _ this
            · intro q hq hqe
              rcases hi.ups q hq with this | ⟨hx, this⟩
              · rw [hqe, hnew] at this; cases this
              · exact (stray (hqe.symm.trans hx) _ _).1 _ this
          · simp only [setAt_other hee] at hx
            obtain ⟨b1, b2, ⟨s, seen, c1, c2, c3, c4, c5⟩, b4⟩ := hi.conn e x hx
            refine ⟨b1, b2, ⟨s, seen, c1, c2, c3, c4, ?_⟩, b4⟩
            intro q hq hqe hn
            rcases List.mem_append.mp hq with hq | hq
            · obtain ⟨d, -, rfl⟩ := List.mem_map.mp hq
              exact absurd hqe.symm hee
            · exact c5 q hq hqe hn
        · intro e hbe
          obtain ⟨x, h1, h2⟩ := hi.tied e hbe
          exact ⟨x, hkeep _ _ h1, h2⟩
        · exact hi.cli.congr rfl fun e x hx => ⟨x, hkeep e x hx, rfl, rfl⟩

/-! ### The client's steps -/

theorem tick_client {c : Cfg} {s : SendSt} (hc : c.sender = .client) (hf : s.finished = false) (hx : s.failed = false)
    (retry fail wb : Bool) (net : SendRes) (nonce : Nat) :
    sendTick c s retry fail wb net nonce = clientSendTick c s retry fail wb net nonce := by
  unfold sendTick
  rw [hf, hx, hc]
  rfl

theorem tick_finished (c : Cfg) (s : SendSt) (retry fail wb : Bool) (net : SendRes) (nonce : Nat) :
    (clientSendTick c s retry fail wb net nonce).1.finished = s.finished := by
  unfold clientSendTick
  repeat' split
  all_goals rfl

theorem up_up {v : Parties S} {late} (h : Honest v late) {n file} (hj : v.job.task = .upload n file) {bound base top w}
    (hi : UpInv v file bound base top w) {cf room ep s since auth} (hcl : w.cli = .up cf room ep s since auth) (i : CliIn)
    (ha : Allowed v late w (.client i)) : ∃ base' top', UpInv v file bound base' top' (v.step w (.client i)) := by
  have hfile : late = none → file.length ≤ 26000000 := by
    have := h.task
    rw [hj] at this
    exact this.2
  have hcli := hi.cli
  unfold UpCli at hcli
  rw [hcl] at hcli
  obtain ⟨hb, c, hc, hbs, hdec, hroom, hsd, hW, hcap, hf0, hx0, m, wd, hS, rfl, rfl⟩ := hcli
  obtain ⟨c2, hc2, t1, t2, t3⟩ := hi.tied ep hb
  rw [hc] at hc2; cases hc2
  obtain ⟨ws, hws, hclock⟩ := hi.writer hc
  have hco := hi.conn ep c hc
  obtain ⟨s0, seen, k1, k2, k3, k4, k5⟩ := hco.side
  rw [hws] at k1; cases k1
  rw [if_pos hb] at k3 k4
  have hpay := payload_471 hco.block
  have hbs0 : 0 < cf.bs := by rw [hbs]; omega
  obtain ⟨w1, g1, g2, g3, g4⟩ := link_tick (D := (v.srv.transfer c).codec.dec) hbs0 hcap hdec hS i.retry i.fail i.wb i.net i.nonce
  rw [tick_client hsd hf0 hx0] at g1 g4
  have hfin1 := tick_finished cf s i.retry i.fail i.wb i.net i.nonce
  rw [hf0] at hfin1
  have hstep : v.step w (.client i) = { w with
      cli := (v.cli.upStep cf room ep s since auth i).1
      up := (v.cli.upStep cf room ep s since auth i).2.map (fun x => ⟨x.1, x.2, w.clock x.1⟩) ++ w.up
      sent := (v.cli.upStep cf room ep s since auth i).1.confirmed w.sent } := by
    simp only [Parties.step, hcl, Cli.step]
  rw [hstep]
  unfold Cli.upStep
  generalize hs1 : clientSendTick cf s i.retry i.fail i.wb i.net i.nonce = r at *
  obtain ⟨s1, d⟩ := r
  simp only at g1 g4 hfin1 ⊢
  have hwr : ws.w.written ≤ wd.top := Nat.le_trans k2.seen k4
  have hroom1 := g1.sim.inv.room
  have htop1 := g1.sim.inv.top_le
  rw [hbs] at htop1
  -- every outcome
  have fin : ∀ (base' : Nat) (st : CliSt), wd.base ≤ base' → base' ≤ ws.w.written → st.confirmed w.sent = bytesIn file c.opts.payload base' →
      UpCli v file bound base' w1.top { w with cli := st } →
      UpInv v file bound base' w1.top { w with
        cli := st
        up := ((d.map (·.bytes)).toList.map (ep, ·)).map (fun x => ⟨x.1, x.2, w.clock x.1⟩) ++ w.up
        sent := st.confirmed w.sent } := by
    intro base' st hb1 hb2 hconf hst
    refine hi.client (w' := { w with
        cli := st
        up := ((d.map (·.bytes)).toList.map (ep, ·)).map (fun x => ⟨x.1, x.2, w.clock x.1⟩) ++ w.up
        sent := st.confirmed w.sent }) rfl rfl rfl rfl rfl ?_ (fun e he => he) ?_ ?_ ?_ ?_ ?_
    · intro x hx
      obtain ⟨y, hy, rfl⟩ := List.mem_map.mp hx
      simp only [Option.mem_toList, Option.map_eq_some_iff] at hy
      obtain ⟨z, hz, rfl⟩ := hy
      refine .inr ⟨c, hc, ?_⟩
      simp only [hb, if_true]
      have := (g4 z hz).1
      rw [hclock, t1, ← hbs]
      exact this
    · intro e x sx hx hsx he
      rw [hb] at he
      simp only [Option.some.injEq] at he
      subst he
      rw [hc] at hx; cases hx
      rw [hws] at hsx; cases hsx
      exact hb2
    · intro e
      split
      · exact g3
      · exact Nat.le_refl _
    · intro hn; rw [hb] at hn; cases hn
    · intro e he
      rw [hb] at he
      simp only [Option.some.injEq] at he
      subst he
      refine ⟨c, hc, hconf, htop1, ?_⟩
      omega
    · exact hst
  have stop : ∀ x f, ∃ base' top', UpInv v file bound base' top' { w with
        cli := .done (.error x) f
        up := ((d.map (·.bytes)).toList.map (ep, ·)).map (fun x => ⟨x.1, x.2, w.clock x.1⟩) ++ w.up
        sent := CliSt.confirmed w.sent (.done (.error x) f) } := by
    intro x f
    exact ⟨wd.base, w1.top, fin wd.base _ (Nat.le_refl _) k3 t1 trivial⟩
  have go : ∀ (base' : Nat) (s2 : SendSt) (m2 : Mapper) (w2 : Window) (since' : Nat), wd.base ≤ base' → base' ≤ ws.w.written →
      SInv cf file m2 w2 s2 → w2.base = base' → w2.top = w1.top → s2.finished = false → s2.failed = false →
      ∃ base' top', UpInv v file bound base' top' { w with
        cli := .up cf room ep s2 since' auth
        up := ((d.map (·.bytes)).toList.map (ep, ·)).map (fun x => ⟨x.1, x.2, w.clock x.1⟩) ++ w.up
        sent := CliSt.confirmed w.sent (.up cf room ep s2 since' auth) } := by
    intro base' s2 m2 w2 since' q1 q2 q3 q4 q5 q6 q7
    refine ⟨base', w1.top, fin base' _ q1 q2 ?_ ?_⟩
    · show s2.total = _
      rw [q3.total, q4, hbs]
    · exact ⟨hb, c, hc, hbs, hdec, hroom, hsd, hW, hcap, q6, q7, m2, w2, q3, q4, q5⟩
  by_cases hx1 : s1.failed = true
  · simp only [hx1, if_true]
    exact stop _ _
  · simp only [hx1, Bool.false_eq_true, if_false]
    have hx1' : s1.failed = false := by simpa using hx1
    cases hr : i.recv with
    | error => exact stop _ _
    | wouldBlock =>
      simp only
      split
      · exact stop _ _
      · exact go wd.base s1 m w1 since (Nat.le_refl _) k3 g1 g2 rfl hfin1 hx1'
    | dgram src dg =>
      simp only
      split
      · exact stop _ _
      · rename_i hopens
        split
        · exact go wd.base s1 m w1 since (Nat.le_refl _) k3 g1 g2 rfl hfin1 hx1'
        · rename_i hsrc
          have hsrc : src = ep := by simpa using hsrc
          subst hsrc
          have hal := ha.2 src dg hr
          rw [hcl] at hal
          obtain ⟨p, hp, hpe, rfl, hage⟩ := (hal rfl).resolve_right fun hn => hopens (by rw [hn]; rfl)
          have a1 := k5 p hp hpe (.inr hb)
          rw [← hroom] at a1
          have hWk := window_ok h hfile hpay.1
          obtain ⟨m2, w2, q1, q2, q3, q4⟩ := link_ack (D := (v.srv.transfer c).codec.dec) hbs0 hdec g1 (by rw [g2]; exact k3) (Nat.le_trans hwr g3)
            (by rw [hbs]; omega) (by rw [hbs]; exact a1)
            (by
              rw [g2, hbs, ← t1, ← hclock]
              exact timely_of h hfile hpay.1 hW hage)
          have heq : sendRecv cf s1 (p.bytes.take room) = clientSendRecv cf s1 (p.bytes.take room) := by unfold sendRecv; rw [hsd]
          rw [heq] at q1
          rw [g2] at q2
          split
          · exact stop _ _
          · rename_i hx2
            have hx2 : (clientSendRecv cf s1 (p.bytes.take room)).failed = false := by simpa using hx2
            split
            · rename_i hf2
              refine ⟨w2.base, w1.top, fin w2.base _ q2 q3 ?_ ?_⟩
              · show (clientSendRecv cf s1 (p.bytes.take room)).total = _
                rw [q1.total, hbs]
              · refine ⟨?_, src, c, hb, hc, ?_⟩
                · rw [q1.total, q1.fin hf2]
                  exact bytesIn_nblocks _ _ _ hbs0 (Nat.le_refl _)
                · rw [q1.fin hf2, hbs]
            · rename_i hf2
              have hf2 : (clientSendRecv cf s1 (p.bytes.take room)).finished = false := by simpa using hf2
              exact go w2.base _ m2 w2 _ q2 q3 q1 rfl q4 hf2 hx2

/-! ### Uploads whose control packets are not encrypted: nothing can overtake the acceptance -/

theorem clear_level {v : Parties S} (hl : OpenControl v.job.opts.level) : v.co.level = v.job.opts.level := by
  rw [co_level]
  unfold Cli.initialSock
  split
  · rfl
  · split
    · rfl
    · simp only
      rw [if_neg (by rcases hl with e | e | e <;> rw [e] <;> simp)]

theorem clear_request {v : Parties S} {late} (h : Honest v late) (hl : OpenControl v.job.opts.level) {dg : Bytes} (hd : v.IsReq dg) :
    v.Open ∧ (v.srv.openRequest dg).1 = none := by
  obtain ⟨e, he, hreq, hway⟩ := request_read h hd
  rcases hway with hw | ⟨hc, -⟩
  · exact hw
  · have := hc.full
    rw [clear_level hl] at this
    rcases hl with e | e | e <;> rw [e] at this <;> cases this

theorem clear_open {v : Parties S} {late} (h : Honest v late) (hl : OpenControl v.job.opts.level) : v.Open := by
  rcases sock_cases h with hw | hc
  · exact hw
  · have := hc.full
    rw [clear_level hl] at this
    rcases hl with e | e | e <;> rw [e] at this <;> cases this

theorem clear_conn {v : Parties S} {late} (h : Honest v late) (hl : OpenControl v.job.opts.level) {t : Nat} {dg : Bytes} {io : NewIo}
    (hd : v.IsReq dg) {c : Conn} {out : List Bytes} (hres : (v.srv.newConn t dg io).result = .ok (c, out)) :
    c.opts.level ≠ .protocol ∧ c.opts.level ≠ .full := by
  have hco := clear_level hl
  obtain ⟨e, he, hreq, -⟩ := request_read h hd
  obtain ⟨write, r, used, keys, name, kind, g1, g2, -⟩ := newConn_ok hres
  rw [hreq] at g1
  simp only [Option.some.injEq, Prod.mk.injEq] at g1
  obtain ⟨-, rfl⟩ := g1
  have hop := (clear_request h hl hd).2
  have harr : v.srv.arrived dg = .none := by unfold Srv.arrived; rw [hop]; rfl
  rw [harr] at g2
  suffices hs : c.opts.level = .none ∨ c.opts.level = .data by
    rcases hs with e | e <;> rw [e] <;> exact ⟨by simp, by simp⟩
  have hnl := nego_level g2
  rcases hnl with ⟨-, h1⟩ | ⟨hk, -, h1⟩
  · exact .inl h1
  · obtain ⟨u0, o0, hp', -, -⟩ := srvNegotiate_ok g2
    obtain ⟨u1, o1, cl, -, hcl, -, hcase⟩ := srvParse_ok hp'
    rcases hcase with ⟨-, -, -, -, rfl⟩ | ⟨l, remote, auth, rfl, -⟩
    · cases hk
    · have hll := h1 l hcl
      rcases he with rfl | ⟨-, rfl⟩
      · unfold Parties.asked at hcl
        rw [createExtensions_eq] at hcl
        simp only [Spec.request] at hcl
        rw [show (v.cli.requestOpts v.job).level = v.job.opts.level from hco] at hcl
        rcases hl with e | e | e
        · rw [e, if_pos rfl] at hcl
          simp [optParse] at hcl
        · rw [e, if_neg (by simp)] at hcl
          simp only [optParse, levelText_parse] at hcl
          cases hcl
          exact .inr hll
        · rw [e, if_neg (by simp)] at hcl
          simp only [optParse, levelText_parse] at hcl
          cases hcl
          exact .inr hll
      · simp [optParse, Exts.empty] at hcl

/-- Everything on its way to the client is an acceptance or an error in the clear as long as the client waits for the first answer. -/
def Early (v : Parties S) (w : World) : Prop := OpenControl v.job.opts.level →
  (∀ e c, w.conns e = some c → c.opts.level ≠ .protocol ∧ c.opts.level ≠ .full) ∧
  ∀ q, w.cli = .query q → ∀ p ∈ w.down, (p.ep, p.bytes) ∈ w.acc ∨ v.Open ∧ ∃ code, p.bytes = (Packet.error code []).toBytes

theorem early_init (v : Parties S) (t : Nat) : Early v (v.init t) := fun _ => ⟨(fun _ _ h => nomatch h), (fun _ _ _ h => nomatch h)⟩

theorem early_client {v : Parties S} {w : World} (h : Early v w) (i : CliIn) : Early v (v.step w (.client i)) := by
  intro hl
  obtain ⟨h1, h2⟩ := h hl
  refine ⟨h1, fun q hq => ?_⟩
  have hq : (v.cli.step v.job w.cli i).1 = .query q := hq
  cases hc : w.cli with
  | query q0 => exact h2 q0 hc
  | up cf room ep s since auth =>
    rw [hc] at hq
    exfalso
    simp only [Cli.step, Cli.upStep] at hq
    repeat' split at hq
    all_goals cases hq
  | down cf room ep s since auth =>
    rw [hc] at hq
    exfalso
    simp only [Cli.step, Cli.downStep] at hq
    repeat' split at hq
    all_goals cases hq
  | done r f =>
    rw [hc] at hq
    cases hq

/-- In the clear control packets travel as they are. -/
theorem clear_enc {v : Srv S} {c : Conn} (h1 : c.opts.level ≠ .protocol) (h2 : c.opts.level ≠ .full) {i : Nat} {p : Packet}
    (hp : ∀ b x, p ≠ .data b x) {d : Bytes} (h : (v.transfer c).codec.enc i p.toBytes = some d) : d = p.toBytes := by
  have hnd := not_data_type p hp
  cases hce : c.enc with
  | none =>
    simp only [Srv.transfer, hce, Codec.plain, Option.some.injEq] at h
    exact h.symm
  | some A =>
    simp only [Srv.transfer, hce, Codec.level] at h
    cases hl : c.opts.level <;> simp_all [protect]

theorem early_server {v : Parties S} {late} (h : Honest v late) {file bound base top w}
    (hi : UpInv v file bound base top w) (he : Early v w) (ep : Ep) (e : LifeEv) (ha : Allowed v late w (.server ep e)) :
    Early v (v.step w (.server ep e)) := by
  intro hl
  obtain ⟨hlev, hdown⟩ := he hl
  cases hlive : w.live with
  | some l =>
    cases hc : w.conns l with
    | none => rw [step_dead hlive hc]; exact ⟨hlev, hdown⟩
    | some c =>
      rw [step_live hlive hc]
      obtain ⟨l1, l2⟩ := hlev l c hc
      obtain ⟨s, hs, -⟩ := hi.writer hc
      have hopts : ∀ c', (v.srv.lifeStep v.stops (some c) e).1 = some c' → c'.opts = c.opts := by
        intro c' hc'
        cases e with
        | start t dg io => cases hc'; rfl
        | tick t io =>
          simp only [Srv.lifeStep, Conn.active, hs] at hc'
          cases hc'; rfl
        | drop => cases hc'
        | check t io =>
          simp only [Srv.lifeStep] at hc'
          split at hc'
          · cases hc'
          · cases hc'; rfl
        | recv t dg io =>
          simp only [Srv.lifeStep] at hc'
          split at hc'
          · cases hc'; rfl
          · simp only [Srv.handle, hs, Option.some.injEq] at hc'
            subst hc'; rfl
      have hout : ∀ q, w.cli = .query q → ∀ d ∈ (v.srv.lifeStep v.stops (some c) e).2, ∃ code, d = (Packet.error code []).toBytes := by
        intro q hq d hd
        have hcli := hi.cli
        unfold UpCli at hcli
        rw [hq] at hcli
        obtain ⟨rfl, -⟩ := hcli
        cases e with
        | start t dg io => cases hd
        | tick t io =>
          simp only [Srv.lifeStep, Conn.active, hs] at hd
          cases hd
        | drop => cases hd
        | check t io =>
          have hd : d ∈ (v.srv.timeout c t io).2.toList := by
            simp only [Srv.lifeStep] at hd
            exact hd
          simp only [Option.mem_toList] at hd
          unfold Srv.timeout at hd
          split at hd
          · cases hd
          · split at hd
            · cases hd
            · simp only at hd
              split at hd
              · exact ⟨_, clear_enc l1 l2 (by simp) hd⟩
              · cases hd
        | recv t dg io =>
          exfalso
          obtain ⟨hdg, -⟩ := ha l hlive
          simp only [Srv.lifeStep] at hd
          split at hd
          · cases hd
          · rcases hdg with ⟨p, hp, hpe, rfl, -⟩ | hforged
            case inr =>
              rw [handle_forged v.srv c t dg io (hforged c hc)] at hd
              cases hd
            have hf := (hi.conn l c hc).up p hp hpe
            rw [if_neg (by simp)] at hf
            simp only [Srv.handle, hs, Option.mem_toList, Option.map_eq_some_iff] at hd
            obtain ⟨x, hx, -⟩ := hd
            unfold serverRecv at hx
            split at hx
            · cases hx
            · rename_i b hb
              split at hx
              · rename_i blk data hdat
                obtain ⟨a1, a2, a3, a4, -⟩ := hf b blk data hb hdat
                omega
              · cases hx
              · cases hx
      have hvo := clear_open h hl
      have all : ∀ q, w.cli = .query q → ∀ p ∈ (v.srv.lifeStep v.stops (some c) e).2.map (⟨l, ·, w.clock l⟩ : Bytes → Pkt) ++ w.down,
          (p.ep, p.bytes) ∈ w.acc ∨ v.Open ∧ ∃ code, p.bytes = (Packet.error code []).toBytes := by
        intro q hq p hp
        rcases List.mem_append.mp hp with hp | hp
        · obtain ⟨d, hd, rfl⟩ := List.mem_map.mp hp
          exact .inr ⟨hvo, hout q hq d hd⟩
        · exact hdown q hq p hp
      cases hn : (v.srv.lifeStep v.stops (some c) e).1 with
      | none => exact ⟨hlev, all⟩
      | some c' =>
        refine ⟨fun e' x hx => ?_, all⟩
        by_cases hel : e' = l
        · subst hel
          simp only [setAt_same, Option.some.injEq] at hx
          subst hx
          rw [hopts c' hn]
          exact ⟨l1, l2⟩
        · simp only [setAt_other hel] at hx
          exact hlev e' x hx
  | none =>
    cases e with
    | tick t io | recv t dg io | check t io | drop => rw [step_idle hlive ep _ rfl]; exact ⟨hlev, hdown⟩
    | start t dg io =>
      obtain ⟨⟨p, hp, hpe, rfl⟩, hasks, ⟨hip, hnew⟩, hos, hcross⟩ := ha hlive
      by_cases hreq : v.srv.requestOf p.bytes = none
      · rw [step_idle hlive ep _ (by simp only [Srv.lifeStep, newConn_other hreq])]; exact ⟨hlev, hdown⟩
      replace hreq : v.IsReq p.bytes := by
        cases hm : (w.conns v.cli.cfg.endpoint).isSome with
        | true => exact hasks hm hreq
        | false =>
          rcases hi.ups p hp with g | g
          · rw [hpe, hm] at g; cases g
          · exact g.2
      unfold Parties.step
      simp only [hlive, Srv.lifeStep]
      cases hres : (v.srv.newConn t p.bytes io).result with
      | error x =>
        simp only
        refine ⟨hlev, fun q hq r hr => ?_⟩
        rcases List.mem_append.mp hr with hr | hr
        · obtain ⟨d, hd, rfl⟩ := List.mem_map.mp hr
          exact .inr ⟨clear_open h hl, replies_plain (clear_request h hl hreq).2 d hd⟩
        · exact hdown q hq r hr
      | ok y =>
        obtain ⟨c, out⟩ := y
        simp only
        refine ⟨fun e' x hx => ?_, fun q hq r hr => ?_⟩
        · by_cases hel : e' = ep
          · subst hel
            simp only [setAt_same, Option.some.injEq] at hx
            subst hx
            exact clear_conn h hl hreq hres
          · simp only [setAt_other hel] at hx
            exact hlev e' x hx
        · rcases List.mem_append.mp hr with hr | hr
          · obtain ⟨d, hd, rfl⟩ := List.mem_map.mp hr
            exact .inl (List.mem_append_left _ (List.mem_map.mpr ⟨d, hd, rfl⟩))
          · exact (hdown q hq r hr).imp (List.mem_append_right _) id

/-- The first answer is an acceptance. -/
theorem early_answer {v : Parties S} {late} (h : Honest v late) {file bound base top w} (hi : UpInv v file bound base top w) (he : Early v w)
    (hwh : Whence v w) {q}
    (hcl : w.cli = .query q) {src : Ep} {d : Bytes} {i : CliIn} (hr : i.recv = .dgram src d) (ha : Allowed v late w (.client i)) :
    ∀ b, v.sock.recv (d.take q.room) = some b → Answer b → (src, d) ∈ w.acc := by
  have hal := ha.2 src d hr
  rw [hcl] at hal
  obtain ⟨hdg, hacc⟩ := hal
  intro b hb hA
  rcases hacc with ⟨-, hl⟩ | hacc
  · obtain ⟨p, hp, hpe, hpd⟩ := hdg.resolve_right fun hn => by rw [hb] at hn; cases hn
    rcases (he hl).2 q hcl p hp with h1 | ⟨hopen, code, h1⟩
    · rw [hpe, hpd] at h1; exact h1
    · exfalso
      rw [hpd] at h1
      have hcli := hi.cli
      unfold UpCli at hcli
      rw [hcl] at hcli
      have hlen : d.length ≤ q.room := by
        rw [hcli.2.2.2, h1]
        unfold recvBuffer
        simp [Packet.toBytes, be16]
        omega
      rw [List.take_of_length_le hlen, h1, hopen.recv _ (by simp)] at hb
      cases hb
      have hdec : Packet.fromBytes (Packet.error code []).toBytes = .ok (.error code []) := decode_error code
      rcases hA with ⟨e, hx⟩ | ⟨e, hx⟩ | ⟨e, x, hx⟩ <;> rw [hdec] at hx <;> cases hx
  · have hcli := hi.cli
    unfold UpCli at hcli
    rw [hcl] at hcli
    exact whence_answer h hwh hcli.2.2.2 hdg hb hA (hacc b hb hA)

/-- A packet which does not end the handshake. -/
theorem reply_other (v : Cli S) (write : Bool) (o : Opts) (used : Exts) (initial : Bool) {b : Bytes} (h : ¬ Answer b) :
    v.reply write o used initial b = .again ∧ o.level = .none ∨ ∃ e, v.reply write o used initial b = .fail e [] := by
  unfold Cli.reply
  split
  · rename_i e he; exact absurd (.inl ⟨e, he⟩) h
  · rename_i n hn; exact absurd (.inr (.inl ⟨n, hn⟩)) h
  · rename_i n x hn; exact absurd (.inr (.inr ⟨n, x, hn⟩)) h
  · split
    · rename_i hc; exact .inl ⟨rfl, hc.2.2⟩
    · exact .inr ⟨_, rfl⟩
  · exact .inr ⟨_, rfl⟩

theorem put_isReq {v : Parties S} {e : Exts} (he : v.ReqExts e) {i : Nat} {ok : Bool} {d : Bytes}
    (h : v.cli.put (v.cli.initialSock v.job.opts).1 i ok (v.job.request e) = some d) : v.IsReq d := by
  refine ⟨e, i, he, ?_⟩
  unfold Cli.put at h ⊢
  unfold Parties.sock
  split at h
  · split at h
    · simpa using h
    · cases h
  · cases h

theorem up_query {v : Parties S} {late} (h : Honest v late) {n file} (hj : v.job.task = .upload n file) {bound base top w}
    (hi : UpInv v file bound base top w) (hy : Early v w) (hwh : Whence v w) {q} (hcl : w.cli = .query q) (i : CliIn)
    (ha : Allowed v late w (.client i)) : ∃ bound' base' top', UpInv v file bound' base' top' (v.step w (.client i)) := by
  have hwrite : v.job.write = true := by unfold Job.write; rw [hj]
  have hcli := hi.cli
  unfold UpCli at hcli
  rw [hcl] at hcli
  obtain ⟨rfl, he, hu, hroom⟩ := hcli
  have hstep : v.step w (.client i) = { w with
      cli := (v.cli.queryStep v.job q i).1
      up := (v.cli.queryStep v.job q i).2.map (fun x => ⟨x.1, x.2, w.clock x.1⟩) ++ w.up
      sent := (v.cli.queryStep v.job q i).1.confirmed w.sent } := by
    simp only [Parties.step, hcl, Cli.step]
  rw [hstep]
  have hsent := hi.free rfl
  -- it goes on asking, or gives up
  have keep : ∀ (st : CliSt) (out : List (Ep × Bytes)), ((∃ q', st = .query q' ∧ v.ReqExts q'.exts ∧ v.ReqExts q'.used ∧ q'.room = recvBuffer v.co.blockSize) ∨
        ∃ e f, st = .done (.error e) f) →
      (∀ x ∈ out, x.1 = v.cli.cfg.endpoint ∧ v.IsReq x.2 ∨ ∃ c, w.conns x.1 = some c ∧
        DataFine (v.srv.transfer c).codec.dec file c.opts.payload 0 (w.clock x.1) x.2) →
      ∃ bound' base' top', UpInv v file bound' base' top' { w with
        cli := st
        up := out.map (fun x => ⟨x.1, x.2, w.clock x.1⟩) ++ w.up
        sent := st.confirmed w.sent } := by
    intro st out hst hout
    refine ⟨none, base, top, hi.client (w' := { w with
        cli := st
        up := out.map (fun x => ⟨x.1, x.2, w.clock x.1⟩) ++ w.up
        sent := st.confirmed w.sent }) rfl rfl rfl rfl rfl ?_ (fun e he => he) (fun _ _ _ _ _ hn => nomatch hn) (fun _ => Nat.le_refl _) ?_
        (fun _ hn => nomatch hn) ?_⟩
    · intro x hx
      rcases hout x hx with h1 | ⟨c, h1, h2⟩
      · exact .inl h1
      · exact .inr ⟨c, h1, by simpa using h2⟩
    · intro _
      rcases hst with ⟨q', rfl, -⟩ | ⟨e, f, rfl⟩ <;> exact hsent
    · rcases hst with ⟨q', rfl, h1⟩ | ⟨e, f, rfl⟩
      · exact ⟨rfl, h1⟩
      · trivial
  unfold Cli.queryStep
  simp only
  cases hput : v.cli.put (v.cli.initialSock v.job.opts).1 i.nonce i.sendOk (v.job.request q.exts) with
  | none => exact keep _ [] (.inr ⟨_, _, rfl⟩) (by simp)
  | some req =>
    have hreq := put_isReq he hput
    have hout1 : ∀ x ∈ [(v.cli.cfg.endpoint, req)], x.1 = v.cli.cfg.endpoint ∧ v.IsReq x.2 ∨ ∃ c, w.conns x.1 = some c ∧
        DataFine (v.srv.transfer c).codec.dec file c.opts.payload 0 (w.clock x.1) x.2 := by
      intro x hx
      simp only [List.mem_singleton] at hx
      subst hx
      exact .inl ⟨rfl, hreq⟩
    simp only
    cases hr : i.recv with
    | error => exact keep _ _ (.inr ⟨_, _, rfl⟩) hout1
    | wouldBlock =>
      simp only
      split
      · exact keep _ _ (.inr ⟨_, _, rfl⟩) hout1
      · exact keep _ _ (.inl ⟨_, rfl, he, hu, hroom⟩) hout1
    | dgram src d =>
      have hal := ha.2 src d hr
      rw [hcl] at hal
      obtain ⟨hdg, -⟩ := hal
      have hacc := early_answer h hi hy hwh hcl hr ha
      simp only
      cases hb : (v.cli.initialSock v.job.opts).1.recv (d.take q.room) with
      | none => exact keep _ _ (.inr ⟨_, _, rfl⟩) hout1
      | some b =>
        obtain ⟨p, hp, hpe, hpd⟩ := hdg.resolve_right fun hn => by
          rw [show v.sock.recv (d.take q.room) = some b from hb] at hn
          cases hn
        have hip : src.ip = v.cli.cfg.endpoint.ip := by rw [← hpe]; exact (hi.downs p hp).1
        simp only
        rw [if_neg (by simpa using hip)]
        split
        · exact keep _ _ (.inr ⟨_, _, rfl⟩) hout1
        · by_cases hA : Answer b
          · obtain ⟨c, hc, hac⟩ := hi.acc _ (hacc b hb hA)
            simp only at hc hac
            have htake : d.take q.room = d := List.take_of_length_le (by rw [hroom]; exact hac.room)
            rw [htake] at hb
            obtain ⟨b', hb', hrep⟩ := hac.reply
            have hbb : b' = b := by
              have : v.sock.recv d = some b := hb
              rw [hb'] at this
              exact Option.some.inj this
            subst hbb
            have hrep := hrep q.used q.initial hu
            change match v.cli.reply v.job.write (v.cli.requestOpts v.job) q.used q.initial b' with
              | .accept _ o rk first => first = none ∧ Agreed v c o rk
              | .again => False
              | .fail _ ps => ∀ p ∈ ps, ∀ i ok d', v.cli.put v.sock i ok p = some d' → ∀ file bs n mark,
                  DataFine (v.srv.transfer c).codec.dec file bs n mark d' ∧ AckFine (v.srv.transfer c).codec.dec file bs n mark d' at hrep
            cases hrp : v.cli.reply v.job.write (v.cli.requestOpts v.job) q.used q.initial b' with
            | again => rw [hrp] at hrep; exact hrep.elim
            | fail e ps =>
              rw [hrp] at hrep
              refine keep _ _ (.inr ⟨_, _, rfl⟩) ?_
              intro x hx
              rcases List.mem_append.mp hx with hx | hx
              · exact hout1 x hx
              · obtain ⟨y, hy, rfl⟩ := List.mem_map.mp hx
                obtain ⟨p', hp', hy⟩ := List.mem_filterMap.mp hy
                exact .inr ⟨c, hc, (hrep p' hp' _ _ _ hy _ _ _ _).1⟩
            | accept ack o rk first =>
              rw [hrp] at hrep
              obtain ⟨-, hag⟩ := hrep
              simp only
              unfold Cli.accepted
              simp only [hj]
              have hemit : ∀ d', ((v.cli.cfgOf (v.cli.configure (v.cli.initialSock v.job.opts).1 (v.job.opts.level ≠ .none) o rk) o).emit i.nonce2 (some 0) (.ack 0)) = some d' →
                  DataFine (v.srv.transfer c).codec.dec file c.opts.payload 0 (w.clock src) d'.bytes := by
                intro d' hd'
                obtain ⟨-, e2⟩ := emit_some hd'
                have hdd := hag.dec
                unfold Parties.sock at hdd
                rw [hdd] at e2
                exact dataFine_of_ack e2 _ _ _ _
              split
              · exact keep _ _ (.inr ⟨_, _, rfl⟩) (by simpa using hout1)
              · rename_i out' hhs
                have hout' : ∀ d' ∈ out', DataFine (v.srv.transfer c).codec.dec file c.opts.payload 0 (w.clock src) d' := by
                  intro d' hd'
                  split at hhs
                  · split at hhs
                    · simp only [Option.map_eq_some_iff] at hhs
                      obtain ⟨y, hy, rfl⟩ := hhs
                      simp only [List.mem_singleton] at hd'
                      subst hd'
                      exact hemit y hy
                    · cases hhs
                  · simp only [Option.some.injEq] at hhs
                    subst hhs
                    cases hd'
                refine ⟨some src, 0, 0, hi.client rfl rfl rfl rfl rfl ?_ (fun _ hn => nomatch hn) (fun _ _ _ _ _ _ => Nat.zero_le _) (fun e => by simp)
                  (fun hn => nomatch hn) ?_ ?_⟩
                · intro x hx
                  rcases List.mem_append.mp hx with hx | hx
                  · rcases hout1 x hx with h1 | ⟨c, h1, h2⟩
                    · exact .inl h1
                    · exact .inr ⟨c, h1, by simpa using h2⟩
                  · obtain ⟨y, hy, rfl⟩ := List.mem_map.mp hx
                    exact .inr ⟨c, hc, by simpa using hout' y hy⟩
                · intro e hee
                  simp only [Option.some.injEq] at hee
                  subst hee
                  exact ⟨c, hc, by simp [CliSt.confirmed, bytesIn], Nat.zero_le _, by omega⟩
                · have hpl : o.payload ≤ max o.blockSize 512 := by
                    have : o.payload ≤ o.blockSize := by unfold Opts.payload; split <;> omega
                    omega
                  refine ⟨rfl, c, hc, hag.bs, hag.dec, by rw [hag.block], rfl, hag.window.2, hpl, rfl, rfl, Mapper.new, Window.init, ?_, rfl, rfl⟩
                  refine SInv.init (c := v.cli.cfgOf (v.cli.configure (v.cli.initialSock v.job.opts).1 (v.job.opts.level ≠ .none) o rk) o) ?_
                  intro hk
                  show o.window = 1
                  unfold Cli.kind at hk
                  split at hk
                  · cases hk
                  · split at hk
                    · assumption
                    · cases hk
          · rcases reply_other v.cli v.job.write (v.cli.requestOpts v.job) q.used q.initial hA with ⟨h1, h2⟩ | ⟨e, h1⟩
            · rw [h1]
              exact keep _ _ (.inl ⟨_, rfl, .inr ⟨h2, rfl⟩, .inr ⟨h2, rfl⟩, rfl⟩) hout1
            · rw [h1]
              exact keep _ _ (.inr ⟨_, _, rfl⟩) (by simpa using hout1)

theorem up_client {v : Parties S} {late} (h : Honest v late) {n file} (hj : v.job.task = .upload n file) {bound base top w}
    (hi : UpInv v file bound base top w) (hy : Early v w) (hwh : Whence v w) (i : CliIn) (ha : Allowed v late w (.client i)) :
    ∃ bound' base' top', UpInv v file bound' base' top' (v.step w (.client i)) := by
  cases hcl : w.cli with
  | query q => exact up_query h hj hi hy hwh hcl i ha
  | up cf room ep s since auth => exact ⟨bound, up_up h hj hi hcl i ha⟩
  | down cf room ep s since auth =>
    have hcli := hi.cli
    unfold UpCli at hcli
    rw [hcl] at hcli
    exact hcli.elim
  | done r f =>
    have hw : v.step w (.client i) = { w with sent := (CliSt.done r f).confirmed w.sent } := by
      simp only [Parties.step, hcl, Cli.step, List.map_nil, List.nil_append]
    have hs : (CliSt.done r f).confirmed w.sent = w.sent := by
      cases r with
      | error e => rfl
      | ok x =>
        have hcli := hi.cli
        unfold UpCli at hcli
        rw [hcl] at hcli
        obtain ⟨h1, e, c, h2, h3, h4⟩ := hcli
        obtain ⟨c', h3', h5, -⟩ := hi.tied e h2
        rw [h3] at h3'; cases h3'
        have hp := payload_471 (hi.conn e c h3).block
        rw [h5, h4, bytesIn_nblocks _ _ _ (by omega) (Nat.le_refl _)]
        exact h1
    rw [hw, hs]
    exact ⟨bound, base, top, hi⟩

theorem up_init (v : Parties S) (file : Bytes) (t : Nat) : UpInv v file none 0 0 (v.init t) := by
  refine ⟨(fun _ h => nomatch h), (fun _ h => nomatch h), (fun _ h => nomatch h), (fun _ h => nomatch h),
    (fun _ _ h => nomatch h), fun _ => rfl, (fun _ h => nomatch h), ?_⟩
  exact ⟨rfl, .inl rfl, .inl rfl, rfl⟩

theorem up_reach_early {v : Parties S} {late} (h : Honest v late) {n file} (hj : v.job.task = .upload n file) {w} (hr : Reach v late w) :
    (∃ bound base top, UpInv v file bound base top w) ∧ Early v w ∧ Whence v w := by
  induction hr with
  | init t => exact ⟨⟨none, 0, 0, up_init v file t⟩, early_init v t, whence_init v t⟩
  | step w e _ ha ih =>
    obtain ⟨⟨bound, base, top, hi⟩, hy, hwh⟩ := ih
    cases e with
    | server ep e => exact ⟨⟨bound, base, top, up_server h hj hi ep e ha⟩, early_server h hi hy ep e ha, whence_server hwh hi.ups ep e ha⟩
    | client i => exact ⟨up_client h hj hi hy hwh i ha, early_client hy i, whence_client hwh i⟩

theorem up_reach {v : Parties S} {late} (h : Honest v late) {n file} (hj : v.job.task = .upload n file) {w} (hr : Reach v late w) :
    ∃ bound base top, UpInv v file bound base top w := (up_reach_early h hj hr).1

/-- **C52.** An upload, from the first request to the end, over a network which loses, repeats and reorders datagrams: every
connection the server makes for it writes an initial part of the client's file; a connection which the server regards as complete has
written the file, and counts its length; and if the client reports success, it reports the length of the file, and there is a
connection which has written all of it. -/
theorem c52_upload {v : Parties S} {late} (h : Honest v late) {n file} (hj : v.job.task = .upload n file) {w} (hr : Reach v late w) :
    (∀ e c, w.conns e = some c → ∃ s, c.side = .writer s ∧ s.w.out <+: file ∧
      (s.finished = true → s.w.out = file ∧ (s.failed = false → s.total = file.length))) ∧
    (∀ k auth f, w.cli = .done (.ok (k, auth)) f → k = file.length ∧
      ∃ e c s, w.conns e = some c ∧ c.side = .writer s ∧ s.w.out = file) := by
  obtain ⟨bound, base, top, hi⟩ := up_reach h hj hr
  have key : ∀ e c, w.conns e = some c → ∃ s seen, c.side = .writer s ∧ RInv (v.srv.transfer c) file seen s ∧ 0 < (v.srv.transfer c).bs := by
    intro e c hc
    obtain ⟨s, seen, h1, h2, -⟩ := (hi.conn e c hc).side
    have hp := payload_471 (hi.conn e c hc).block
    exact ⟨s, seen, h1, h2, by show 0 < c.opts.payload; omega⟩
  refine ⟨?_, ?_⟩
  · intro e c hc
    obtain ⟨s, seen, h1, h2, h3⟩ := key e c hc
    refine ⟨s, h1, by rw [h2.out]; exact List.take_prefix _ _, fun hf => ?_⟩
    have hw := h2.fin hf
    have hn := bytesIn_nblocks file (v.srv.transfer c).bs _ h3 (Nat.le_refl _)
    exact ⟨by rw [h2.out, hw, hn, List.take_length], fun hx => by rw [h2.total hx, hw, hn]⟩
  · intro k auth f hd
    have hcli := hi.cli
    unfold UpCli at hcli
    rw [hd] at hcli
    obtain ⟨h1, e, c, h2, h3, h4⟩ := hcli
    obtain ⟨s, seen, k1, k2, k3, -⟩ := (hi.conn e c h3).side
    obtain ⟨-, -, -, -, g3⟩ := key e c h3
    rw [if_pos h2] at k3
    refine ⟨h1, e, c, s, h3, k1, ?_⟩
    rw [k2.out, bytesIn_nblocks _ _ _ g3 (by rw [← show base = nblocks file (v.srv.transfer c).bs from h4]; exact k3), List.take_length]

end Tftp

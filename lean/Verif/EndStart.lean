import Verif.EndLiveDown
import Verif.ReceiverProps
/-
C75: a client and a server which are configured to work together do work together. If the server takes the client's request, and the
client may talk to the socket the server opens for it, then the whole transfer, from the first request on, can be carried out without a
fault: nothing which the negotiation can agree on is a dead end.
-/
namespace Tftp
open Spec

variable {S : SigScheme}

/-- The first packet of a client which hears nothing is its request. -/
theorem first_request {v : Parties S} {t : Nat} {i : CliIn} (hi : Faultless t (.client i)) (hw : i.recv = .wouldBlock) {dg : Bytes}
    (hs : (v.cli.step v.job (.query (v.cli.start v.job t)) i).2 = [(v.cli.cfg.endpoint, dg)]) :
    v.cli.put v.sock i.nonce true (v.job.request v.asked) = some dg := by
  simp only [Cli.step, Cli.queryStep, hw, hi.2.1] at hs
  split at hs
  · cases hs
  · rename_i req hr
    split at hs
    all_goals
      simp only [List.cons.injEq, Prod.mk.injEq, true_and, and_true] at hs
      subst hs
      exact hr

/-- After the client has heard the acceptance it transfers. -/
theorem begin {v : Parties S} {late} (h : Honest v late) {t : Nat} {i : CliIn}
    (hi : Faultless t (.client i)) (hw : i.recv = .wouldBlock) {dg : Bytes}
    (hs : (v.cli.step v.job (.query (v.cli.start v.job t)) i).2 = [(v.cli.cfg.endpoint, dg)])
    {ep : Ep} (hep : ep = v.cli.cfg.endpoint ∨ ep.ip = v.cli.cfg.endpoint.ip ∧ v.cli.cfg.allowPortChange = true) {io : NewIo} (hio : Os v late io) {c : Conn} {d : Bytes}
    {out : List Bytes} (hd : d ∈ out) (hres : (v.srv.newConn t dg io).result = .ok (c, out))
    (hcross : c.opts.level = .protocol ∨ c.opts.level = .full → Foreign v ep c out) :
    ∃ w1 w2, Works v late t (v.init t) t w1 ∧ Allowed v late w1 (.server ep (.start t dg io)) ∧
      Works v late t (v.step w1 (.server ep (.start t dg io))) t w2 ∧ w2.live = some ep ∧ w2.conns ep = some c ∧
      w2.started = [(ep, io)] ∧
      ((∃ n file, v.job.task = .upload n file) → ∃ cf room s auth, w2.cli = .up cf room ep s t auth) ∧
      (v.job.task = .download true → c.opts.fileSize.getD 0 ≤ v.cli.cfg.maxFileSize →
        ∃ cf room s auth, w2.cli = .down cf room ep s t auth) := by
  have hput := first_request hi hw hs
  have hisreq : v.IsReq dg := ⟨v.asked, i.nonce, .inl rfl, hput⟩
  have hput' : v.cli.put (v.cli.initialSock v.job.opts).1 i.nonce i.sendOk (v.job.request (v.cli.start v.job t).exts) = some dg := by
    rw [hi.2.1]; exact hput
  obtain ⟨-, -, -, -, hacc⟩ := new_conn h hio hisreq hres (fun x => (hcross x).1)
  have hA := hacc d hd
  have hip : ep.ip = v.cli.cfg.endpoint.ip := by
    rcases hep with rfl | h
    · rfl
    · exact h.1
  have hport : ¬ (ep ≠ v.cli.cfg.endpoint ∧ v.cli.cfg.allowPortChange = false) := by
    rintro ⟨h1, h2⟩
    rcases hep with h | h
    · exact h1 h
    · rw [h.2] at h2; cases h2
  -- the request
  let q := v.cli.start v.job t
  let w1 : World := v.step (v.init t) (.client i)
  have hq1 : (v.cli.step v.job (.query q) i).1 = .query { q with pause := min (v.cli.cfg.requestTimeout - (t - t)) (q.pause * 2) } := by
    simp only [Cli.step, Cli.queryStep, q, hput', hw, hi.1]
    rw [if_neg (by simp [Cli.start])]
    rfl
  have hw1 : w1.cli = .query { q with pause := min (v.cli.cfg.requestTimeout - (t - t)) (q.pause * 2) } := hq1
  have hup1 : w1.up = [⟨v.cli.cfg.endpoint, dg, (v.init t).clock v.cli.cfg.endpoint⟩] := by
    show ((v.cli.step v.job (.query q) i).2.map _) ++ [] = _
    rw [hs]; rfl
  have a1 : Allowed v late (v.init t) (.client i) := by
    refine ⟨.inl hi.2.2.2.2.1, ?_⟩
    intro src d' hx; rw [hw] at hx; cases hx
  have a2 : Allowed v late w1 (.server ep (.start t dg io)) := by
    intro _
    refine ⟨⟨_, by rw [hup1]; exact List.mem_singleton.mpr rfl, rfl, rfl⟩, fun _ _ => hisreq, ⟨hip, rfl⟩, hio, ?_⟩
    intro c' out' hr'
    rw [hres] at hr'
    cases hr'
    exact hcross
  -- the acceptance
  let w2 : World := v.step w1 (.server ep (.start t dg io))
  have hl1 : w1.live = none := rfl
  have hstep2 : w2 = { w1 with
          conns := setAt w1.conns ep c
          live := some ep
          down := out.map (⟨ep, ·, w1.clockOf c⟩) ++ w1.down
          acc := out.map (ep, ·) ++ w1.acc
          started := [(ep, io)] ++ w1.started } := by
    simp only [w2, Parties.step, hl1, Srv.lifeStep, hres, LifeEv.opened]
  let i2 : CliIn := { i with recv := .dgram ep d }
  have hi2 : Faultless t (.client i2) := ⟨hi.1, hi.2.1, hi.2.2.1, hi.2.2.2.1, hi.2.2.2.2.1, by simp [i2]⟩
  have a3 : Allowed v late w2 (.client i2) := by
    refine ⟨.inl hi.2.2.2.2.1, ?_⟩
    intro src d' hx
    simp only [i2, NetIn.dgram.injEq] at hx
    obtain ⟨rfl, rfl⟩ := hx
    have hc2 : w2.cli = w1.cli := by rw [hstep2]
    rw [hc2, hw1]
    refine ⟨.inl ⟨⟨ep, d, w1.clockOf c⟩, ?_, rfl, rfl⟩, ?_⟩
    · rw [hstep2]; exact List.mem_append_left _ (List.mem_map.mpr ⟨d, hd, rfl⟩)
    · refine .inr fun _ _ _ => ?_
      rw [hstep2]; exact fun _ => List.mem_append_left _ (List.mem_map.mpr ⟨d, hd, rfl⟩)
  have d1 : Delivered (v.init t) (.client i) := by
    intro src d' hx; rw [hw] at hx; cases hx
  have d3 : Delivered w2 (.client i2) := by
    intro src d' hx
    simp only [i2, NetIn.dgram.injEq] at hx
    obtain ⟨rfl, rfl⟩ := hx
    exact ⟨⟨ep, d, w1.clockOf c⟩, by rw [hstep2]; exact List.mem_append_left _ (List.mem_map.mpr ⟨d, hd, rfl⟩), rfl, rfl⟩
  let w3 : World := v.step w2 (.client i2)
  have hcli : ∃ o rk ack, (v.job.write = false → o.fileSize.getD 0 ≤ c.opts.fileSize.getD 0) ∧
      w3.cli = (v.cli.accepted v.job ep ack o rk none i2).1 := by
    obtain ⟨b, hb, -⟩ := hA.reply
    obtain ⟨ack, o, rk, hrep, hsz⟩ := hA.asked b hb true
    refine ⟨o, rk, ack, hsz, ?_⟩
    show (v.cli.step v.job w2.cli i2).1 = _
    have hc2 : w2.cli = w1.cli := by rw [hstep2]
    rw [hc2, hw1]
    have htake : d.take (recvBuffer (v.cli.requestOpts v.job).blockSize) = d := List.take_of_length_le hA.room
    have hput2 : v.cli.put (v.cli.initialSock v.job.opts).1 i2.nonce i2.sendOk (v.job.request q.exts) = some dg := hput'
    simp only [Cli.step, Cli.queryStep, hput2]
    have hroom : q.room = recvBuffer (v.cli.requestOpts v.job).blockSize := rfl
    have hb' : (v.cli.initialSock v.job.opts).1.recv d = some b := hb
    have hrep' : v.cli.reply v.job.write (v.cli.requestOpts v.job) q.used q.initial b = .accept ack o rk none := hrep
    simp only [i2, hroom, htake, hb', hip, hrep', ne_eq, not_true_eq_false, if_false]
    rw [if_neg hport]
  obtain ⟨o, rk, ack, hsz, hcli⟩ := hcli
  refine ⟨w1, w3, .one (Nat.le_refl _) hi ⟨a1, d1⟩, a2, .one (Nat.le_refl _) hi2 ⟨a3, d3⟩, ?_, ?_, ?_, ?_, ?_⟩
  · show w2.live = _
    rw [hstep2]
  · show w2.conns ep = _
    rw [hstep2]; simp [setAt]
  · show w2.started = _
    rw [hstep2]; rfl
  · rintro ⟨n, file, hj⟩
    rw [hcli]
    unfold Cli.accepted
    simp only [hj]
    obtain ⟨x, hx, -⟩ := emit_ack (c := v.cli.cfgOf (v.cli.configure (v.cli.initialSock v.job.opts).1 (decide (v.job.opts.level ≠ .none)) o rk) o) i2.nonce2 0
    have hx : (v.cli.cfgOf (v.cli.configure (v.cli.initialSock v.job.opts).1 (decide (v.job.opts.level ≠ .none)) o rk) o).emit i2.nonce2 (some 0) (.ack 0) = some x := hx
    have ht : i2.t = t := hi.1
    cases ack
    · simp only [Bool.false_eq_true, if_false, ht]
      exact ⟨_, _, _, _, rfl⟩
    · simp only [hi2.2.1, if_true, hx, Option.map_some, ht]
      exact ⟨_, _, _, _, rfl⟩
  · intro hj hmax
    have hsz := hsz (by simp [Job.write, hj])
    rw [hcli]
    unfold Cli.accepted
    simp only [hj]
    obtain ⟨x, hx, -⟩ := emit_ack (c := v.cli.cfgOf (v.cli.configure (v.cli.initialSock v.job.opts).1 (decide (v.job.opts.level ≠ .none)) o rk) o) i2.nonce2 0
    have hx : (v.cli.cfgOf (v.cli.configure (v.cli.initialSock v.job.opts).1 (decide (v.job.opts.level ≠ .none)) o rk) o).emit i2.nonce2 (some 0) (.ack 0) = some x := hx
    have ht : i2.t = t := hi.1
    have hle : ¬ o.fileSize.getD 0 > v.cli.cfg.maxFileSize := by omega
    cases ack
    · simp only [Bool.false_eq_true, if_false, ht, if_neg hle, not_true_eq_false]
      exact ⟨_, _, _, _, rfl⟩
    · simp only [hi2.2.1, if_true, if_neg hle, not_true_eq_false, if_false, hx, Option.map_some, ht]
      exact ⟨_, _, _, _, rfl⟩

/-- **C75.** Uploads. `dg` is the first packet of a client which starts at time `t` and has heard nothing. If the server accepts it with a
connection on its main port, or on a fresh one if the client allows the change of the port, and allows the size of the file: then the whole upload can be
carried out at that moment, without a fault, by delivering only datagrams that were sent. The client reports success with the number of
bytes, and the server has stored the file and regards the transfer as successful. (The last hypothesis: the session cipher does not
open what was not encrypted with it, see `Spec.Foreign`.) -/
theorem c75_upload {v : Parties S} {late} (h : Honest v late) {n file}
    (hj : v.job.task = .upload n file) (hmax : file.length ≤ v.srv.cfg.maxFileSize) {t : Nat} {i : CliIn}
    (hi : Faultless t (.client i)) (hw : i.recv = .wouldBlock) {dg : Bytes}
    (hs : (v.cli.step v.job (.query (v.cli.start v.job t)) i).2 = [(v.cli.cfg.endpoint, dg)])
    {ep : Ep} (hep : ep = v.cli.cfg.endpoint ∨ ep.ip = v.cli.cfg.endpoint.ip ∧ v.cli.cfg.allowPortChange = true) {io : NewIo} (hio : Os v late io) {c : Conn}
    {out : List Bytes} (hres : (v.srv.newConn t dg io).result = .ok (c, out))
    (hcross : c.opts.level = .protocol ∨ c.opts.level = .full → Foreign v ep c out) :
    ∃ w1 w2 auth c' r, Works v late t (v.init t) t w1 ∧ Allowed v late w1 (.server ep (.start t dg io)) ∧
      Works v late t (v.step w1 (.server ep (.start t dg io))) t w2 ∧
      w2.cli = .done (.ok (file.length, auth)) [] ∧
      w2.conns ep = some c' ∧ c'.side = .writer r ∧ r.w.out = file ∧ r.finished = true ∧ r.failed = false := by
  have hwr : v.job.write = true := by simp [Job.write, hj]
  have hisreq : v.IsReq dg := ⟨v.asked, i.nonce, .inl rfl, first_request hi hw hs⟩
  obtain ⟨-, -, -, ⟨name, -, hside⟩, -⟩ := new_conn h hio hisreq hres (fun x => (hcross x).1)
  rw [hwr] at hside
  simp only [if_true] at hside
  obtain ⟨d, hd⟩ : ∃ d, d ∈ out := by
    obtain ⟨e, -, hreq, -⟩ := request_read h hisreq
    obtain ⟨write, r, used, keys, name, kind, g1, -, -, -, -, -, -, -, -, g6⟩ := newConn_ok hres
    rw [hreq] at g1
    simp only [Option.some.injEq, Prod.mk.injEq] at g1
    rw [← g1.1, hwr] at g6
    simp only [if_true] at g6
    split at g6 <;> (obtain ⟨d, -, rfl⟩ := g6; exact ⟨d, List.mem_singleton.mpr rfl⟩)
  obtain ⟨w1, w2, x1, x2, x3, hl, hc, -, hup, -⟩ := begin h hi hw hs hep hio hd hres hcross
  obtain ⟨cf, room, s, auth, hcli⟩ := hup ⟨n, file, hj⟩
  have hr2 : Reach v late w2 := x3.reach (.step _ _ (x1.reach (.init t)) x2)
  obtain ⟨w3, c', r, y, rest⟩ := c74_upload h hj hr2 hcli hl hc hside.2 ⟨rfl, rfl⟩ hmax (t := t) (by omega)
  exact ⟨w1, w3, auth, c', r, x1, x2, x3.trans y, rest⟩

/-- **C75.** Downloads: likewise, if the server opens the file, answers with an option acknowledgement, the client can create its file
and allows the announced and the real size of the file. The client ends with the file which the server opened. -/
theorem c75_download {v : Parties S} {late} (h : Honest v late)
    (hj : v.job.task = .download true) {t : Nat} {i : CliIn} (hi : Faultless t (.client i)) (hw : i.recv = .wouldBlock) {dg : Bytes}
    (hs : (v.cli.step v.job (.query (v.cli.start v.job t)) i).2 = [(v.cli.cfg.endpoint, dg)])
    {ep : Ep} (hep : ep = v.cli.cfg.endpoint ∨ ep.ip = v.cli.cfg.endpoint.ip ∧ v.cli.cfg.allowPortChange = true) {io : NewIo} (hio : Os v late io)
    {name size file} (hname : normalizeName v.job.name = some name) (hopen : io.openRead name = some (size, file))
    (hmax : size.getD 0 ≤ v.cli.cfg.maxFileSize ∧ file.length ≤ v.cli.cfg.maxFileSize) {c : Conn}
    {out : List Bytes} (hres : (v.srv.newConn t dg io).result = .ok (c, out)) (hout : out ≠ [])
    (hcross : c.opts.level = .protocol ∨ c.opts.level = .full → Foreign v ep c out) :
    ∃ w1 t' w2 auth c' r, Works v late t (v.init t) t w1 ∧ Allowed v late w1 (.server ep (.start t dg io)) ∧
      Works v late t (v.step w1 (.server ep (.start t dg io))) t' w2 ∧
      w2.cli = .done (.ok (file.length, auth)) file ∧
      w2.conns ep = some c' ∧ c'.side = .reader r ∧ r.finished = true ∧ r.failed = false ∧ r.total = file.length := by
  have hwr : v.job.write = false := by simp [Job.write, hj]
  have hisreq : v.IsReq dg := ⟨v.asked, i.nonce, .inl rfl, first_request hi hw hs⟩
  obtain ⟨d, hd⟩ := List.exists_mem_of_ne_nil out hout
  obtain ⟨e, -, hreq, -⟩ := request_read h hisreq
  obtain ⟨write, r, used, keys, name', kind, g1, g2, g3, -, g5, -, -, -, -, -⟩ := newConn_ok hres
  rw [hreq] at g1
  simp only [Option.some.injEq, Prod.mk.injEq] at g1
  rw [← g1.1, hwr] at g5
  rw [← g1.2] at g3
  simp only [hname, Option.some.injEq] at g3
  subst g3
  simp only [Bool.false_eq_true, if_false] at g5
  obtain ⟨size', file', f1, f2, hside⟩ := g5
  rw [hopen] at f1
  cases f1
  have hfs : c.opts.fileSize = size := by
    obtain ⟨u0, o0, -, -, hk⟩ := srvNegotiate_ok g2
    rcases hk with ⟨hk, -⟩ | ⟨a, hk, -, hk2⟩
    · rw [f2] at hk; cases hk
    · rw [f2] at hk; cases hk
      rw [hk2]
  obtain ⟨w1, w2, x1, x2, x3, hl, hc, hst, -, hdn⟩ := begin h hi hw hs hep hio hd hres hcross
  obtain ⟨cf, room, s, auth, hcli⟩ := hdn hj (by rw [hfs]; exact hmax.1)
  have hr2 : Reach v late w2 := x3.reach (.step _ _ (x1.reach (.init t)) x2)
  have only : ∀ f, Served v w2 ep f → f = file := by
    rintro f ⟨nm, io', sz, k1, k2, k3⟩
    rw [hname] at k1; cases k1
    rw [hst, List.mem_singleton] at k2; cases k2
    rw [hopen] at k3; cases k3; rfl
  obtain ⟨f, t', w3, c', r', y0, y, rest⟩ := c74_download h hj hr2 hcli hl hc hside ⟨rfl, rfl⟩
    (by intro f hf; rw [only f hf]; exact hmax.2) t
  rw [only f y0] at rest
  exact ⟨w1, t', w3, auth, c', r', x1, x2, x3.trans y, rest⟩

end Tftp

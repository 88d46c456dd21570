import Verif.RfcTake
import Verif.RfcRounds
/-
C85: transfers of this client with the servers of RfcServer.lean on a network which loses nothing run from window to window: nobody ever waits for
a time to pass.
-/
namespace Tftp.Rfc
open Tftp Spec

variable {S : SigScheme}

/-! ### Specification -/

/-- An iteration of the client at the time `t` in which nothing fails and no time has passed. -/
def swift (t k : Nat) : CliIn := ⟨t, .wouldBlock, true, k, k, false, false, false, .sent, .all⟩

/-- The server sends the next `m` blocks, each of which reaches the client, and then hears the newest datagram of the client. -/
def takeRound (t k m : Nat) : List TakeEv := (List.range m).flatMap (fun n => [.send n, .client (swift t k) (some 0)]) ++ [.hear 0]

/-- Windows of `W` blocks until all `N` blocks are sent. -/
def takeRounds (t k W N : Nat) : Nat → List TakeEv
  | 0 => []
  | r + 1 => takeRounds t k W N r ++ takeRound t k (min W (N - r * W))

/-- The server answers the request, and hears what the client sends: its request, again, if the server answers from the address of the request, and
the acknowledgement of the OACK. -/
def takeStart (t k : Nat) : List TakeEv := [.oack, .client (swift t k) (some 0), .hear 0, .hear 1]

/-- The client has `m` turns without receiving anything, the server hears the newest datagram after each of them; then it acknowledges once, and the
client hears this. -/
def sendRound (t k m : Nat) : List SendEv :=
  (List.replicate m [SendEv.client (swift t k) none, .hear 0]).flatten ++ [.ack, .client (swift t k) (some 0)]

def sendRounds (t k W N : Nat) : Nat → List SendEv
  | 0 => []
  | r + 1 => sendRounds t k W N r ++ sendRound t k (min W (N - r * W))

/-- The server answers the request. -/
def sendStart (t k : Nat) : List SendEv := [.ack, .client (swift t k) (some 0)]

/-! ### Downloads -/

/-- The next block at the client's receiving side. -/
theorem crecv_next {c : Cfg} {file : Bytes} {r : RecvSt} {dg : Bytes} (hrole : c.receiver = .client) (hbs : 0 < c.bs)
    (h : RInv c file r.w.written r)
    (hd : c.codec.dec dg = some (Packet.data (UInt16.ofNat ((r.w.written + 1) % 65536)) (block file c.bs (r.w.written + 1))).toBytes)
    (henc : ∀ n b, c.codec.enc n b = some b)
    (hN : r.w.written + 1 ≤ nblocks file c.bs) (hfail : r.failed = false) (hfit : file.length ≤ c.max) (nonce : Nat) (due : Bool)
    (hdue : due = ackDue c r.lastAck (r.w.written + 1) (some (block file c.bs (r.w.written + 1)).length)) (q : RecvSt × Option Dgram)
    (hq : q = clientRecv c r dg .all true nonce) :
    RInv c file (r.w.written + 1) q.1 ∧ q.1.w.written = r.w.written + 1 ∧ q.1.failed = false ∧
    q.1.lastAck = (if due then r.w.written + 1 else r.lastAck) ∧ q.2.map (·.bytes) = (if due then some (ackPacket (r.w.written + 1)) else none) := by
  obtain ⟨hi, hm⟩ := r.w.mapper.index_fresh r.w.written (r.w.written + 1) (nblocks file c.bs) h.mapper (by omega) hN (.inl (by omega)) (.inl (by omega))
  have hw := write_cases (t := r.w.written + 1) h hi true
  have hrd := (recv_data hbs h hd (by omega) hN hi hm true true nonce).1
  have hrr : recvRecv c r dg .all true nonce = clientRecv c r dg .all true nonce := by unfold recvRecv; rw [hrole]
  simp only [if_true] at hrd
  rw [hrr, ← hq, show max r.w.written (r.w.written + 1) = r.w.written + 1 by omega] at hrd
  refine ⟨hrd, ?_⟩
  clear hrd hrr
  subst hq
  rw [if_pos rfl] at hw
  simp only [if_true] at hw
  have htot := h.total_le
  have hlen := block_length file c.bs (r.w.written + 1) (by omega)
  simp only [Nat.add_sub_cancel] at hlen
  have hmono := bytesIn_mono file c.bs (i := r.w.written) (j := r.w.written + 1) (by omega)
  have hbl : bytesIn file c.bs (r.w.written + 1) ≤ file.length := by unfold bytesIn; omega
  have hmax : ¬ r.total + (block file c.bs (r.w.written + 1)).length > c.max := by omega
  have hem : ∀ k p, c.emit nonce k p = some ⟨k, p.toBytes⟩ := by intro k p; unfold Cfg.emit; rw [henc]; rfl
  simp only [clientRecv, hd, decode_data, toNat_ofNat_mod, hw, hmax, decide_false, Bool.false_eq_true, if_false, hem, ← hdue]
  cases due with
  | true => exact ⟨rfl, hfail, rfl, congrArg some (ack_bytes _)⟩
  | false => exact ⟨rfl, hfail, rfl, rfl⟩

/-- The client has `n` blocks and has acknowledged `last` of them. -/
def TakeAt (ep : Ep) (file : Bytes) (bs W limit t n last : Nat) (st : CliSt) : Prop :=
  if n = nblocks file bs then st = .done (.ok (file.length, none)) file
  else ∃ c room s, st = .down c room ep s t none ∧ c.bs = bs ∧ c.ackW = W ∧ c.max = limit ∧ c.receiver = .client ∧ (∀ n b, c.codec.enc n b = some b) ∧
    (∀ b, c.codec.dec b = some b) ∧ bs + 4 ≤ room ∧ RInv c file n s ∧ s.w.written = n ∧ s.lastAck = last ∧ s.failed = false

/-- One block of a window. -/
theorem swift_block {v : Cli S} {j : Job} {ep : Ep} {answer file : Bytes} (hbs : 0 < blockSize [answer]) (hfit : file.length ≤ v.cfg.maxFileSize)
    {age : Option Nat} (t k : Nat) {X : Take} {n m : Nat} (hst : X.started = true) (hc : X.confirmed = n)
    (h : TakeAt ep file (blockSize [answer]) (windowSize [answer]) v.cfg.maxFileSize t (n + m) n X.cli) (hm : m < windowSize [answer])
    (hN : n + m + 1 ≤ nblocks file (blockSize [answer])) (last : Bool)
    (hlast : last = decide (m + 1 = windowSize [answer] ∨ n + m + 1 = nblocks file (blockSize [answer]))) (Y : Take)
    (hY : Y = X.run v j ep answer file age [.send m, .client (swift t k) (some 0)]) :
    Y.started = true ∧ Y.confirmed = n ∧
    TakeAt ep file (blockSize [answer]) (windowSize [answer]) v.cfg.maxFileSize t (n + m + 1) (if last then n + m + 1 else n) Y.cli ∧
    Y.toPeer = (if last then [⟨ackPacket (n + m + 1), n⟩] else []) ++ X.toPeer ∧ Y.toClient.length = X.toClient.length + 1 := by
  unfold TakeAt at h
  rw [if_neg (by omega)] at h
  obtain ⟨c, room, s, h1, h2, h3, h4, h5, h6, h7, h8, h9, h10, h11, h12⟩ := h
  obtain ⟨x, hx⟩ : ∃ x, x = dataPacket (n + m + 1) (block file (blockSize [answer]) (n + m + 1)) := ⟨_, rfl⟩
  have hYs : Y = { X with cli := (v.step j X.cli { swift t k with recv := .dgram ep x }).1
                          toClient := ⟨x, n⟩ :: X.toClient
                          toPeer := ((v.step j X.cli { swift t k with recv := .dgram ep x }).2.filter (·.1 = ep)).map (fun d => ⟨d.2, n⟩) ++ X.toPeer } := by
    rw [hY]
    simp only [Take.run, List.foldl_cons, List.foldl_nil, Take.step, hc]
    rw [if_pos ⟨hst, hm, hN⟩]
    simp only
    rw [← hx]
    have hdl : deliver age (⟨x, n⟩ :: X.toClient) n (some 0) = some x := deliver_zero age ⟨x, n⟩ X.toClient
    rw [hdl]
    rfl
  have htk : x.take room = x := by
    apply List.take_of_length_le
    rw [hx, dataPacket_length]
    have hb := block_length_le file (blockSize [answer]) (n + m + 1)
    omega
  have hdc : c.codec.dec x = some (Packet.data (UInt16.ofNat ((s.w.written + 1) % 65536)) (block file c.bs (s.w.written + 1))).toBytes := by
    rw [h7, hx, data_bytes, h2, h10]
  have hsh := block_short_iff file (blockSize [answer]) (n + m + 1) hbs (by omega) hN
  have hdue : last = ackDue c s.lastAck (s.w.written + 1) (some (block file c.bs (s.w.written + 1)).length) := by
    unfold ackDue
    rw [hlast, h10, h11, h3, h2]
    simp only [Option.getD_some]
    rw [Bool.eq_iff_iff]
    simp only [Bool.or_eq_true, decide_eq_true_eq]
    omega
  obtain ⟨r1, r2, r3, r4, r5⟩ := crecv_next h5 (by rw [h2]; exact hbs) (by rw [h10]; exact h9) hdc h6 (by rw [h2, h10]; exact hN) h12
    (by rw [h4]; exact hfit) k last hdue _ rfl
  have hstep : v.step j (.down c room ep s t none) { swift t k with recv := .dgram ep x } =
      (if (clientRecv c s x .all true k).1.finished = true then
        .done (.ok ((clientRecv c s x .all true k).1.total, none)) (clientRecv c s x .all true k).1.w.out
      else .down c room ep (clientRecv c s x .all true k).1 (if (clientRecv c s x .all true k).1.w.written > s.w.written then t else t) none,
      ((clientRecv c s x .all true k).2.map (·.bytes)).toList.map (ep, ·)) :=
    down_step v j ep { swift t k with recv := .dgram ep x } rfl htk (by rw [hdc]; rfl) r3 t none
  rw [h1, hstep] at hYs
  generalize clientRecv c s x .all true k = q at r1 r2 r3 r4 r5 hYs
  rw [h10] at r1 r2 r4 r5
  rw [h11] at r4
  have hpeer : Y.toPeer = (if last then [⟨ackPacket (n + m + 1), n⟩] else []) ++ X.toPeer := by
    rw [hYs, r5]
    cases last <;> simp
  refine ⟨by rw [hYs]; exact hst, by rw [hYs]; exact hc, ?_, hpeer, by rw [hYs]; rfl⟩
  rw [hYs]
  unfold TakeAt
  by_cases hend : n + m + 1 = nblocks file (blockSize [answer])
  · rw [if_pos hend]
    have hf : q.1.finished = true := by
      rcases r1.done (by rw [r2, h2]; exact hend) with hf | hf
      · exact hf
      · rw [r3] at hf; cases hf
    have ht := r1.total r3
    rw [r2, h2, bytesIn_nblocks _ _ _ hbs (by omega)] at ht
    have ho := r1.out
    rw [r2, h2, bytesIn_nblocks _ _ _ hbs (by omega)] at ho
    simp only [hf, if_true, ht, ho]
    rw [List.take_of_length_le (l := file) (Nat.le_refl _)]
  · rw [if_neg hend]
    have hf : q.1.finished = false := by
      cases hf : q.1.finished with
      | false => rfl
      | true => have := r1.fin hf; rw [r2, h2] at this; exact absurd this hend
    refine ⟨c, room, q.1, ?_, h2, h3, h4, h5, h6, h7, h8, r1, r2, r4, r3⟩
    simp only [hf, Bool.false_eq_true, if_false]
    split <;> rfl

/-- The blocks of a window. -/
theorem swift_blocks {v : Cli S} {j : Job} {ep : Ep} {answer file : Bytes} (hbs : 0 < blockSize [answer]) (hfit : file.length ≤ v.cfg.maxFileSize)
    {age : Option Nat} (t k : Nat) {X : Take} {n : Nat} (hst : X.started = true) (hc : X.confirmed = n)
    (h : TakeAt ep file (blockSize [answer]) (windowSize [answer]) v.cfg.maxFileSize t n n X.cli) (m : Nat) (hm : m ≤ windowSize [answer])
    (hN : n + m ≤ nblocks file (blockSize [answer])) (last : Bool)
    (hlast : last = decide (1 ≤ m ∧ (m = windowSize [answer] ∨ n + m = nblocks file (blockSize [answer])))) (Y : Take)
    (hY : Y = X.run v j ep answer file age ((List.range m).flatMap (fun n => [.send n, .client (swift t k) (some 0)]))) :
    Y.started = true ∧ Y.confirmed = n ∧
    TakeAt ep file (blockSize [answer]) (windowSize [answer]) v.cfg.maxFileSize t (n + m) (if last then n + m else n) Y.cli ∧
    Y.toPeer = (if last then [⟨ackPacket (n + m), n⟩] else []) ++ X.toPeer ∧ Y.toClient.length = X.toClient.length + m := by
  induction m generalizing last Y with
  | zero =>
    have : last = false := by rw [hlast]; simp
    subst this
    rw [hY]
    exact ⟨hst, hc, h, rfl, rfl⟩
  | succ m ih =>
    obtain ⟨g0, g1, g2, g3, g4⟩ := ih (by omega) (by omega) false (by
      symm
      simp only [decide_eq_false_iff_not]
      omega) _ rfl
    rw [List.range_succ, List.flatMap_append, Take.run_append] at hY
    generalize X.run v j ep answer file age ((List.range m).flatMap (fun n => [.send n, .client (swift t k) (some 0)])) = X1 at g0 g1 g2 g3 g4 hY
    simp only [Bool.false_eq_true, if_false, List.nil_append] at g2 g3
    obtain ⟨r0, r1, r2, r3, r4⟩ := swift_block (j := j) hbs hfit (age := age) t k g0 g1 g2 (by omega) (by omega) last (by
      rw [hlast]
      congr 1
      apply propext
      omega) Y (by rw [hY]; rfl)
    exact ⟨r0, r1, r2, by rw [r3, g3]; rfl, by rw [r4, g4]; omega⟩

theorem swift_rounds {v : Cli S} {j : Job} {ep : Ep} {answer file : Bytes} (hbs : 0 < blockSize [answer]) (hfit : file.length ≤ v.cfg.maxFileSize)
    (hwin : 1 ≤ windowSize [answer] ∧ windowSize [answer] ≤ 65535)
    {age : Option Nat} (t k : Nat) {X : Take} (hst : X.started = true) (hc : X.confirmed = 0)
    (h : TakeAt ep file (blockSize [answer]) (windowSize [answer]) v.cfg.maxFileSize t 0 0 X.cli) (r : Nat)
    (hr : r ≤ windows (nblocks file (blockSize [answer])) (windowSize [answer])) (Y : Take) (n : Nat)
    (hn : n = min (r * windowSize [answer]) (nblocks file (blockSize [answer])))
    (hY : Y = X.run v j ep answer file age (takeRounds t k (windowSize [answer]) (nblocks file (blockSize [answer])) r)) :
    Y.started = true ∧ Y.confirmed = n ∧ TakeAt ep file (blockSize [answer]) (windowSize [answer]) v.cfg.maxFileSize t n n Y.cli ∧
    Y.toPeer.length = X.toPeer.length + r ∧ Y.toClient.length = X.toClient.length + n := by
  generalize hN : nblocks file (blockSize [answer]) = N at *
  generalize hW : windowSize [answer] = W at *
  induction r generalizing Y n with
  | zero =>
    rw [Nat.zero_mul, Nat.zero_min] at hn
    rw [hY, hn]
    exact ⟨hst, hc, h, rfl, rfl⟩
  | succ r ih =>
    obtain ⟨g0, g1, g2, g3, g4⟩ := ih _ _ (by omega) rfl rfl
    rw [takeRounds, Take.run_append, takeRound, Take.run_append] at hY
    generalize X.run v j ep answer file age (takeRounds t k W N r) = X1 at g0 g1 g2 g3 g4 hY
    have hN1 : 1 ≤ N := by rw [← hN]; exact nblocks_pos _ _
    have hw := windows_spec hN1 hwin.1
    have hlt : r * W < N := by
      have : r * W ≤ (windows N W - 1) * W := Nat.mul_le_mul_right _ (by omega)
      omega
    have hs : (r + 1) * W = r * W + W := Nat.succ_mul _ _
    rw [Nat.min_eq_left (Nat.le_of_lt hlt)] at g1 g2 g4
    have hm1 : 1 ≤ min W (N - r * W) := by omega
    obtain ⟨q0, q1, q2, q3, q4⟩ := swift_blocks (v := v) (j := j) hbs hfit (age := age) t k g0 g1 (by rw [hW]; exact g2) (min W (N - r * W)) (by omega)
      (by omega) true (by symm; simp only [decide_eq_true_eq]; omega) _ rfl
    generalize X1.run v j ep answer file age ((List.range (min W (N - r * W))).flatMap (fun n => [.send n, .client (swift t k) (some 0)])) = X2
      at q0 q1 q2 q3 q4 hY
    simp only [if_true, List.singleton_append] at q2 q3
    have e : r * W + min W (N - r * W) = n := by omega
    have e2 : Y = { X2 with confirmed := r * W + min W (N - r * W) } := by
      rw [hY]
      simp only [Take.run, List.foldl_cons, List.foldl_nil, Take.step, q0, q1, q3, if_true]
      have hdl : deliver age (⟨ackPacket (r * W + min W (N - r * W)), r * W⟩ :: X1.toPeer) (r * W) (some 0) = some (ackPacket (r * W + min W (N - r * W))) :=
        deliver_zero age ⟨ackPacket (r * W + min W (N - r * W)), r * W⟩ X1.toPeer
      rw [hdl]
      simp only
      rw [heard_next (by rw [hW]; exact hwin.2) hm1 (by omega) (by omega)]
    rw [e] at e2 q2
    rw [e2]
    refine ⟨q0, rfl, by rw [← hW]; exact q2, ?_, ?_⟩
    · simp only [q3, List.length_cons]; omega
    · simp only; omega

/-- The OACK reaches the client. -/
theorem take_begin {v : Cli S} {j : Job} (hp : Spec.NoEncryption j) (hj : j.task = .download true)
    (hb : j.opts.blockSize ≤ 65535) (hw : 1 ≤ j.opts.window ∧ j.opts.window ≤ 65535) (hs : j.opts.fileSize = none ∨ j.opts.fileSize = some 0)
    {ep : Ep} (hep : ep = v.cfg.endpoint ∨ ep.ip = v.cfg.endpoint.ip ∧ v.cfg.allowPortChange = true) {answer : Bytes} (hlen : answer.length ≤ 512) (t k : Nat)
    {e : Exts} (ha : Packet.fromBytes answer = .ok (.optionalAck e)) (hc : Confirms (v.start j t).exts e)
    {file : Bytes} (hfit : file.length ≤ v.cfg.maxFileSize) (hsize : ∀ t, e .transferSize = some t → parseUInt (2 ^ 64 - 1) t = some file.length) :
    512 ≤ blockSize [answer] ∧ 1 ≤ windowSize [answer] ∧ windowSize [answer] ≤ 65535 ∧
    ∃ st req, v.step j (.query (v.start j t)) { swift t k with recv := .dgram ep answer } = (st, [(v.cfg.endpoint, req), (ep, ackPacket 0)]) ∧
      req ≠ ackPacket 0 ∧ TakeAt ep file (blockSize [answer]) (windowSize [answer]) v.cfg.maxFileSize t 0 0 st := by
  have hopts := plain_requestOpts v j hp
  have hfs : (v.requestOpts j).fileSize = j.opts.fileSize := by
    unfold Cli.requestOpts
    rw [plain_sock v j hp, hj]
  have hip : ep.ip = v.cfg.endpoint.ip := by
    rcases hep with rfl | h
    · rfl
    · exact h.1
  have hport : ¬ (ep ≠ v.cfg.endpoint ∧ v.cfg.allowPortChange = false) := by
    rintro ⟨h1, h2⟩
    rcases hep with h | h
    · exact h1 h
    · rw [h.2] at h2; cases h2
  have hrecv : ∀ b, (v.initialSock j.opts).1.recv b = some b := by intro b; rw [plain_sock v j hp]; rfl
  obtain ⟨o', h⟩ := confirms_accept (S := S) hopts.1 (by rw [hopts.2.2]; exact hb) (by rw [hopts.2.1]; exact hw.2) (by
      intro n hn
      rw [hfs] at hn
      rcases hs with h | h
      · rw [h] at hn; cases hn
      · rw [h] at hn; cases hn; decide) (keys := ⟨v.sessionPub, v.cfg.privateKey⟩) (used := (v.start j t).exts) (e := e) (.inl rfl) hc
    v.cfg.privateKey.isSome v.cfg.remoteKey
  have hacc : v.reply j.write (v.requestOpts j) (v.start j t).used (v.start j t).initial answer = .accept true o' none none := by
    unfold Cli.reply
    rw [ha]
    simp only
    rw [show (v.start j t).used = (v.start j t).exts from rfl, h]
  have hsz : ¬ o'.fileSize.getD 0 > v.cfg.maxFileSize := by
    rcases cli_size h hopts.1 with g | g
    · rw [g, hfs]
      rcases hs with k | k <;> rw [k] <;> simp
    · rw [g]
      cases ht : e .transferSize with
      | none => simp
      | some t =>
        simp only [Option.bind_some, hsize t ht, Option.getD_some]
        omega
  obtain ⟨g1, g2, g3, g4, g5, g6, -⟩ := cli_reply hopts.1 (by rw [hopts.2.1]; exact hw.1) (.inr ⟨e, ha⟩) hacc
  have g6 := g6 rfl
  rw [hopts.2.1] at g5
  have hroom : 516 ≤ (v.start j t).room := by show 516 ≤ max _ _; omega
  refine ⟨by omega, by omega, by omega, ?_⟩
  have hreq : (j.request (v.start j t).exts).toBytes ≠ ackPacket 0 := by
    unfold Job.request
    split
    · intro h
      have := congrArg (List.take 2) h
      revert this
      show ¬ ([0, 2] : Bytes) = [0, 4]; decide
    · intro h
      have := congrArg (List.take 2) h
      revert this
      show ¬ ([0, 1] : Bytes) = [0, 4]; decide
  have hpay : o'.payload = blockSize [answer] := by unfold Opts.payload; rw [g1]; exact g2
  simp only [Cli.step, Cli.queryStep, swift, plain_put v j hp, hrecv]
  rw [List.take_of_length_le (by omega), if_neg (by rw [hip]; simp), if_neg hport, hacc]
  simp only [Cli.accepted, hj, accepted_cfg v j hp]
  have hem : ∀ n k p, (v.cfgOf ⟨none, .none, [], o'.payload⟩ o').emit n k p = some ⟨k, p.toBytes⟩ := by
    intro n k p; rfl
  simp only [hem, if_true, Option.map_some, not_true_eq_false, if_false, hsz]
  refine ⟨_, _, rfl, hreq, ?_⟩
  unfold TakeAt
  rw [if_neg (by have := nblocks_pos file (blockSize [answer]); omega)]
  refine ⟨_, _, _, rfl, hpay, g6, rfl, rfl, fun _ _ => rfl, fun _ => rfl, ?_, RInv.init _ _, rfl, rfl, rfl⟩
  show blockSize [answer] + 4 ≤ max (o'.blockSize + 4) 516
  omega

/-- **C85**, downloads: on a network which loses nothing this client downloads from a server of C84 window after window. It acknowledges the OACK and then
each window with one acknowledgement, at once: no time passes, nothing is sent twice except for the request, and at the end the client has the file, reports its size,
and the server knows that all blocks have arrived. The file may have any number of blocks. -/
theorem c85_download (v : Cli S) (j : Job) (hp : Spec.NoEncryption j) (hj : j.task = .download true)
    (hb : j.opts.blockSize ≤ 65535) (hw : 1 ≤ j.opts.window ∧ j.opts.window ≤ 65535) (hsz : j.opts.fileSize = none ∨ j.opts.fileSize = some 0)
    (ep : Ep) (hep : ep = v.cfg.endpoint ∨ ep.ip = v.cfg.endpoint.ip ∧ v.cfg.allowPortChange = true)
    (answer file : Bytes) (e : Exts) (ha : Packet.fromBytes answer = .ok (.optionalAck e)) (hlen : answer.length ≤ 512)
    (hfit : file.length ≤ v.cfg.maxFileSize) (hsize : ∀ t, e .transferSize = some t → parseUInt (2 ^ 64 - 1) t = some file.length)
    (t : Nat) (hopts : Confirms (v.start j t).exts e) (age : Option Nat) (nonce N : Nat) (hN : N = file.length / blockSize [answer] + 1) (X : Take)
    (hX : X = (Take.init v j t).run v j ep answer file age
      (takeStart t nonce ++ takeRounds t nonce (windowSize [answer]) N (windows N (windowSize [answer])))) :
    X.confirmed = N ∧ X.cli = .done (.ok (file.length, none)) file ∧
    X.toClient.length = 1 + N ∧ X.toPeer.length = (if ep = v.cfg.endpoint then 2 else 1) + windows N (windowSize [answer]) := by
  obtain ⟨b1, b2, b3, st, req, hstep, hreq, hat⟩ := take_begin hp hj hb hw hsz hep hlen t nonce ha hopts hfit hsize
  have hN : N = nblocks file (blockSize [answer]) := hN
  subst hN
  rw [Take.run_append] at hX
  have hY : (Take.init v j t).run v j ep answer file age (takeStart t nonce) =
      ⟨st, true, 0, ([(v.cfg.endpoint, req), (ep, ackPacket 0)].filter (·.1 = ep)).map (fun d => ⟨d.2, 0⟩), [⟨answer, 0⟩]⟩ := by
    simp only [takeStart, Take.run, List.foldl_cons, List.foldl_nil, Take.init]
    have e1 : Take.step v j ep answer file age ⟨.query (v.start j t), false, 0, [], []⟩ .oack = ⟨.query (v.start j t), false, 0, [], [⟨answer, 0⟩]⟩ := by
      simp [Take.step]
    have e2 : Take.step v j ep answer file age ⟨.query (v.start j t), false, 0, [], [⟨answer, 0⟩]⟩ (.client (swift t nonce) (some 0)) =
        ⟨st, false, 0, ([(v.cfg.endpoint, req), (ep, ackPacket 0)].filter (·.1 = ep)).map (fun d => ⟨d.2, 0⟩), [⟨answer, 0⟩]⟩ := by
      simp only [Take.step]
      have hdl : deliver age [⟨answer, 0⟩] 0 (some 0) = some answer := deliver_zero age ⟨answer, 0⟩ []
      rw [hdl]
      have hr : received ep (some answer) (swift t nonce) = { swift t nonce with recv := .dgram ep answer } := rfl
      rw [hr, hstep]
      simp only [List.append_nil]
    rw [e1, e2]
    by_cases he : v.cfg.endpoint = ep
    · subst he
      simp [Take.step, deliver, inTime_self, hreq]
    · simp [Take.step, deliver, inTime_self, he]
  rw [hY] at hX
  obtain ⟨q0, q1, q2, q3, q4⟩ := swift_rounds (by omega) hfit ⟨b2, b3⟩ (age := age) t nonce rfl rfl hat _ (Nat.le_refl _) X _ rfl hX
  have hws := (windows_spec (nblocks_pos file (blockSize [answer])) b2).1
  rw [Nat.min_eq_right hws] at q1 q2 q4
  refine ⟨q1, ?_, by rw [q4]; simp, ?_⟩
  · unfold TakeAt at q2
    rw [if_pos rfl] at q2
    exact q2
  · rw [q3]
    congr 1
    by_cases he : ep = v.cfg.endpoint
    · subst he; simp
    · rw [if_neg he]
      have : ¬ v.cfg.endpoint = ep := fun h => he h.symm
      simp [this]

/-! ### Uploads -/

/-- The client has sent `n + i` blocks, of which `n` are confirmed. -/
def SendAt (ep : Ep) (file : Bytes) (bs W t n i : Nat) (st : CliSt) : Prop :=
  if n = nblocks file bs then st = .done (.ok (file.length, none)) []
  else ∃ c room s m, st = .up c room ep s t none ∧ PlainCfg c bs W ∧ c.W = W ∧ 516 ≤ room ∧ SInv c file m ⟨n, n + i, n + i⟩ s ∧ s.failed = false ∧
    s.finished = false

/-- The server has `n` blocks. -/
structure PeerAt (file : Bytes) (bs n : Nat) (p : Receiver) : Prop where
  blocks : p.blocks = n
  out : p.out = file.take (bytesIn file bs n)
  done : p.done = true ↔ n = nblocks file bs

theorem up_quiet (v : Cli S) (j : Job) (ep : Ep) {c : Cfg} {room : Nat} {s : SendSt} (i : CliIn) (hi : i.recv = .wouldBlock) (q : SendSt × Option Dgram)
    (hq : clientSendTick c s i.retry i.fail i.wb i.net i.nonce = q) (hf : q.1.failed = false) (since : Nat) (ht : i.t ≤ since) (auth : Option Bytes) :
    v.step j (.up c room ep s since auth) i = (.up c room ep q.1 since auth, (q.2.map (·.bytes)).toList.map (ep, ·)) := by
  simp only [Cli.step, Cli.upStep, hi, hq, hf, Bool.false_eq_true, if_false]
  rw [if_neg (by omega)]

theorem up_told (v : Cli S) (j : Job) (ep : Ep) {c : Cfg} {room : Nat} {s : SendSt} {x : Bytes} (i : CliIn) (hi : i.recv = .dgram ep x) (htk : x.take room = x)
    (hd : (c.codec.dec x).isSome = true) (q : SendSt × Option Dgram) (hq : clientSendTick c s i.retry i.fail i.wb i.net i.nonce = q) (hf : q.1.failed = false)
    (z : SendSt) (hz : clientSendRecv c q.1 x = z) (hzf : z.failed = false) (since : Nat) (auth : Option Bytes) :
    v.step j (.up c room ep s since auth) i =
      (if z.finished = true then .done (.ok (z.total, auth)) [] else .up c room ep z (if c.isAck x then i.t else since) auth,
        (q.2.map (·.bytes)).toList.map (ep, ·)) := by
  have hd' : (c.codec.dec x).isNone = false := by cases h : c.codec.dec x <;> simp_all
  simp only [Cli.step, Cli.upStep, hi, hq, hf, htk, hd', Bool.false_eq_true, if_false, ne_eq, not_true_eq_false, hz, hzf]
  cases hfin : z.finished <;> simp

/-- One block of a window. -/
theorem swift_send {v : Cli S} {j : Job} {ep : Ep} {answer file : Bytes} (hbs : 0 < blockSize [answer]) {age : Option Nat} (t k : Nat) {W : Nat} {X : Send}
    {n i : Nat} (h : SendAt ep file (blockSize [answer]) W t n i X.cli) (hp : PeerAt file (blockSize [answer]) (n + i) X.peer) (hi : i < W)
    (hN : n + i < nblocks file (blockSize [answer])) (Y : Send) (hY : Y = X.run v j ep answer age [.client (swift t k) none, .hear 0]) :
    SendAt ep file (blockSize [answer]) W t n (i + 1) Y.cli ∧ PeerAt file (blockSize [answer]) (n + (i + 1)) Y.peer ∧
    Y.toPeer.length = X.toPeer.length + 1 ∧ Y.toClient = X.toClient := by
  unfold SendAt at h ⊢
  rw [if_neg (by omega)] at h ⊢
  obtain ⟨c, room, s, m, h1, h2, h3, h4, h5, h6, h7⟩ := h
  obtain ⟨p1, p2, p3⟩ := hp
  have hnext : (⟨n, n + i, n + i⟩ : Window).next file c.bs c.W false = (⟨n, n + i + 1, n + i + 1⟩, some (n + i + 1, false)) := by
    unfold Window.next
    rw [h2.bs, h3, if_neg (by simp), if_neg (by simp), if_pos (by simp only; omega)]
  obtain ⟨t0, t1⟩ := ctick_cases (by rw [h2.bs]; exact hbs) h2.cap h2.enc h5 false false false .sent k _ rfl
  rcases t1 with ⟨hx, -⟩ | ⟨t1, t2, t3⟩
  · cases hx
  rw [hnext] at t1 t3
  simp only [if_true, h2.bs] at t1 t3
  have t2 := t2 rfl
  generalize hdg : dataPacket (n + i + 1) (block file (blockSize [answer]) (n + i + 1)) = dg at *
  have hst : v.step j (.up c room ep s t none) (swift t k) = (.up c room ep (clientSendTick c s false false false .sent k).1 t none, [(ep, dg)]) := by
    rw [up_quiet v j ep (swift t k) rfl _ rfl (by rw [← h6]; exact t2) t (Nat.le_refl _) none]
    have t3' : ((clientSendTick c s (swift t k).retry (swift t k).fail (swift t k).wb (swift t k).net (swift t k).nonce).2.map (·.bytes)) = some dg := t3
    rw [t3']
    rfl
  have hrec : received ep (deliver age X.toClient X.peer.blocks none) (swift t k) = swift t k := rfl
  have e1 : X.step v j ep answer age (.client (swift t k) none) = { X with
      cli := .up c room ep (clientSendTick c s false false false .sent k).1 t none
      toPeer := ⟨dg, X.peer.blocks⟩ :: X.toPeer } := by
    simp only [Send.step]
    rw [hrec, h1, hst]
    simp
  have hnd : X.peer.done = false := by
    cases hd : X.peer.done with
    | false => rfl
    | true => have := p3.mp hd; omega
  have hhear : X.peer.hear (blockSize [answer]) dg =
      ⟨n + i + 1, file.take (bytesIn file (blockSize [answer]) (n + i + 1)), decide (dg.length < blockSize [answer] + 4)⟩ := by
    unfold Receiver.hear
    rw [if_pos ⟨hnd, by rw [← hdg, dataPacket_head, p1]⟩, p1, p2]
    rw [show dg.drop 4 = block file (blockSize [answer]) (n + i + 1) by rw [← hdg]; rfl, take_bytesIn_succ]
  have e : Y = { X with
      cli := .up c room ep (clientSendTick c s false false false .sent k).1 t none
      peer := X.peer.hear (blockSize [answer]) dg
      toPeer := ⟨dg, X.peer.blocks⟩ :: X.toPeer } := by
    rw [hY]
    simp only [Send.run, List.foldl_cons, List.foldl_nil]
    rw [e1]
    simp only [Send.step]
    rw [deliver_zero age ⟨dg, X.peer.blocks⟩ X.toPeer]
  have hlen : dg.length = (block file (blockSize [answer]) (n + i + 1)).length + 4 := by rw [← hdg, dataPacket_length]
  rw [e]
  refine ⟨⟨c, room, _, m, rfl, h2, h3, h4, t1, by rw [t2]; exact h6, by rw [t0]; exact h7⟩, ⟨?_, ?_, ?_⟩, rfl, rfl⟩
  · rw [hhear]; rfl
  · rw [hhear]; rfl
  · rw [hhear]
    simp only [decide_eq_true_eq]
    have := block_short_iff file (blockSize [answer]) (n + i + 1) hbs (by omega) (by omega)
    omega

theorem swift_sends {v : Cli S} {j : Job} {ep : Ep} {answer file : Bytes} (hbs : 0 < blockSize [answer]) {age : Option Nat} (t k : Nat) {W : Nat} {X : Send}
    {n : Nat} (m i : Nat) (h : SendAt ep file (blockSize [answer]) W t n i X.cli) (hp : PeerAt file (blockSize [answer]) (n + i) X.peer) (hi : i + m ≤ W)
    (hN : n + i + m ≤ nblocks file (blockSize [answer])) (Y : Send)
    (hY : Y = X.run v j ep answer age (List.replicate m [SendEv.client (swift t k) none, .hear 0]).flatten) :
    SendAt ep file (blockSize [answer]) W t n (i + m) Y.cli ∧ PeerAt file (blockSize [answer]) (n + (i + m)) Y.peer ∧
    Y.toPeer.length = X.toPeer.length + m ∧ Y.toClient = X.toClient := by
  induction m generalizing X i with
  | zero => rw [hY]; exact ⟨h, hp, rfl, rfl⟩
  | succ m ih =>
    rw [List.replicate_succ, List.flatten_cons, Send.run_append] at hY
    obtain ⟨g1, g2, g3, g4⟩ := swift_send (v := v) (j := j) hbs (age := age) t k h hp (by omega) (by omega) _ rfl
    generalize X.run v j ep answer age [SendEv.client (swift t k) none, .hear 0] = X1 at g1 g2 g3 g4 hY
    obtain ⟨q1, q2, q3, q4⟩ := ih (i + 1) g1 g2 (by omega) (by omega) hY
    rw [show i + 1 + m = i + (m + 1) by omega] at q1 q2
    exact ⟨q1, q2, by omega, by rw [q4, g4]⟩

/-- The acknowledgement of a window. -/
theorem swift_confirm {v : Cli S} {j : Job} {ep : Ep} {answer file : Bytes} (hbs : 0 < blockSize [answer]) {age : Option Nat} (t k : Nat) {W : Nat}
    (hW : W ≤ 10000) {X : Send} {n i : Nat} (h : SendAt ep file (blockSize [answer]) W t n i X.cli) (hp : PeerAt file (blockSize [answer]) (n + i) X.peer)
    (hi : i ≤ W) (hi1 : 1 ≤ i) (hN : n + i ≤ nblocks file (blockSize [answer])) (hfull : i = W ∨ n + i = nblocks file (blockSize [answer])) (Y : Send)
    (hY : Y = X.run v j ep answer age [.ack, .client (swift t k) (some 0)]) :
    SendAt ep file (blockSize [answer]) W t (n + i) 0 Y.cli ∧ Y.peer = X.peer ∧ Y.toPeer = X.toPeer ∧ Y.toClient.length = X.toClient.length + 1 := by
  unfold SendAt at h
  rw [if_neg (by omega)] at h
  obtain ⟨c, room, s, m, h1, h2, h3, h4, h5, h6, h7⟩ := h
  have hb : X.peer.blocks = n + i := hp.blocks
  have hnext : (⟨n, n + i, n + i⟩ : Window).next file c.bs c.W false = (⟨n, n + i, n + i⟩, none) := by
    unfold Window.next
    rw [h2.bs, h3, if_neg (by simp), if_neg (by simp), if_neg (by simp only; omega)]
  obtain ⟨t0, t1⟩ := ctick_cases (by rw [h2.bs]; exact hbs) h2.cap h2.enc h5 false false false .sent k _ rfl
  rcases t1 with ⟨hx, -⟩ | ⟨t1, t2, t3⟩
  · cases hx
  rw [hnext] at t1 t3
  simp only at t1 t3
  have t2 := t2 rfl
  rw [h6] at t2
  obtain ⟨hix, hm⟩ := m.index_fresh n (n + i) (nblocks file (blockSize [answer])) h5.mapper (by omega) hN (.inl (by omega)) (.inl (by omega))
  have hd : c.codec.dec (ackPacket (n + i)) = some (Packet.ack (UInt16.ofNat ((n + i) % 65536))).toBytes := by rw [h2.dec, ack_bytes]
  have htk : (ackPacket (n + i)).take room = ackPacket (n + i) := List.take_of_length_le (by show 4 ≤ room; omega)
  obtain ⟨w', f1, f2, f3, f4⟩ := send_recv_ack (c := c) (by rw [h2.bs]; exact hbs) t1 hd (Nat.le_refl _) hix hm
  have hsr : sendRecv c (clientSendTick c s false false false .sent k).1 (ackPacket (n + i)) =
      clientSendRecv c (clientSendTick c s false false false .sent k).1 (ackPacket (n + i)) := by unfold sendRecv; rw [h2.sender]
  rw [hsr] at f1 f4
  rw [t2] at f4
  have hst := up_told v j ep { swift t k with recv := .dgram ep (ackPacket (n + i)) } rfl htk (by rw [h2.dec]; rfl)
    (clientSendTick c s false false false .sent k) rfl t2 _ rfl f4 t none
  rw [t3] at hst
  simp only [swift, ite_self, Option.toList_none, List.map_nil] at hst
  generalize clientSendRecv c (clientSendTick c s false false false .sent k).1 (ackPacket (n + i)) = z at f1 f4 hst
  have hcur : w' = ⟨n + i, n + i + 0, n + i + 0⟩ := by
    have hw' := f1.sim.inv
    have c1 := hw'.base_cur
    have c2 := hw'.cur_top
    obtain ⟨b, cu, tp⟩ := w'
    simp only at f2 f3 c1 c2
    have e1 : b = n + i := by omega
    have e2 : cu = n + i := by omega
    have e3 : tp = n + i := by omega
    rw [e1, e2, e3, Nat.add_zero]
  rw [hcur] at f1
  have e : Y = { X with
      cli := (v.step j (.up c room ep s t none) { swift t k with recv := .dgram ep (ackPacket (n + i)) }).1
      toClient := ⟨ackPacket (n + i), n + i⟩ :: X.toClient } := by
    rw [hY]
    simp only [Send.run, List.foldl_cons, List.foldl_nil, Send.step]
    rw [if_neg (by omega), hb]
    have hdl : deliver age (⟨ackPacket (n + i), n + i⟩ :: X.toClient) (n + i) (some 0) = some (ackPacket (n + i)) :=
      deliver_zero age ⟨ackPacket (n + i), n + i⟩ X.toClient
    rw [hdl, h1]
    have hr : received ep (some (ackPacket (n + i))) (swift t k) = { swift t k with recv := .dgram ep (ackPacket (n + i)) } := rfl
    rw [hr]
    simp only [swift]
    rw [hst]
    simp
  rw [e]
  refine ⟨?_, rfl, rfl, rfl⟩
  simp only [swift]
  rw [hst]
  simp only
  unfold SendAt
  by_cases hend : n + i = nblocks file (blockSize [answer])
  · rw [if_pos hend]
    have hf : z.finished = true := by
      rcases f1.done (by rw [h2.bs]; exact hend) with hf | hf
      · exact hf
      · rw [f4] at hf; cases hf
    have ht := f1.total
    simp only [hend, h2.bs] at ht
    rw [bytesIn_nblocks _ _ _ hbs (Nat.le_refl _)] at ht
    rw [hf, ht]
    rfl
  · rw [if_neg hend]
    have hf : z.finished = false := by
      cases hf : z.finished with
      | false => rfl
      | true => have : n + i = nblocks file c.bs := f1.fin hf; rw [h2.bs] at this; exact absurd this hend
    rw [hf]
    exact ⟨c, room, z, _, rfl, h2, h3, h4, f1, f4, hf⟩

theorem swift_windows {v : Cli S} {j : Job} {ep : Ep} {answer file : Bytes} (hbs : 0 < blockSize [answer]) {age : Option Nat} (t k : Nat) {W : Nat}
    (hwin : 1 ≤ W ∧ W ≤ 10000) {X : Send} (h : SendAt ep file (blockSize [answer]) W t 0 0 X.cli) (hp : PeerAt file (blockSize [answer]) 0 X.peer) (r : Nat)
    (N : Nat) (hN : N = nblocks file (blockSize [answer])) (hr : r ≤ windows N W) (Y : Send) (n : Nat) (hn : n = min (r * W) N)
    (hY : Y = X.run v j ep answer age (sendRounds t k W N r)) :
    SendAt ep file (blockSize [answer]) W t n 0 Y.cli ∧ PeerAt file (blockSize [answer]) n Y.peer ∧
    Y.toPeer.length = X.toPeer.length + n ∧ Y.toClient.length = X.toClient.length + r := by
  induction r generalizing Y n with
  | zero =>
    rw [Nat.zero_mul, Nat.zero_min] at hn
    rw [hY, hn]
    exact ⟨h, hp, rfl, rfl⟩
  | succ r ih =>
    obtain ⟨g1, g2, g3, g4⟩ := ih (by omega) _ _ rfl rfl
    rw [sendRounds, Send.run_append, sendRound, Send.run_append] at hY
    generalize X.run v j ep answer age (sendRounds t k W N r) = X1 at g1 g2 g3 g4 hY
    have hN1 : 1 ≤ N := by rw [hN]; exact nblocks_pos _ _
    have hw := windows_spec hN1 hwin.1
    have hlt : r * W < N := by
      have : r * W ≤ (windows N W - 1) * W := Nat.mul_le_mul_right _ (by omega)
      omega
    have hs : (r + 1) * W = r * W + W := Nat.succ_mul _ _
    rw [Nat.min_eq_left (Nat.le_of_lt hlt)] at g1 g2 g3
    obtain ⟨q1, q2, q3, q4⟩ := swift_sends (v := v) (j := j) hbs (age := age) t k (min W (N - r * W)) 0 g1 g2 (by omega) (by omega) _ rfl
    generalize X1.run v j ep answer age (List.replicate (min W (N - r * W)) [SendEv.client (swift t k) none, .hear 0]).flatten = X2 at q1 q2 q3 q4 hY
    rw [Nat.zero_add] at q1 q2
    obtain ⟨f1, f2, f3, f4⟩ := swift_confirm (v := v) (j := j) hbs (age := age) t k hwin.2 q1 q2 (by omega) (by omega) (by omega) (by omega) Y hY
    have e : r * W + min W (N - r * W) = n := by omega
    rw [e] at f1 q2
    exact ⟨f1, by rw [f2]; exact q2, by rw [f3]; omega, by rw [f4, q4]; omega⟩

/-- The answer reaches the client. -/
theorem send_begin {v : Cli S} {j : Job} (hp : Spec.NoEncryption j) {size : Option Nat} {file : Bytes} (hj : j.task = .upload size file)
    (hb : j.opts.blockSize ≤ 65535) (hw : 1 ≤ j.opts.window ∧ j.opts.window ≤ 65535) (hs : ∀ n, size = some n ∨ j.opts.fileSize = some n → n < 2 ^ 64)
    {ep : Ep} (hep : ep = v.cfg.endpoint ∨ ep.ip = v.cfg.endpoint.ip ∧ v.cfg.allowPortChange = true) {answer : Bytes} (hlen : answer.length ≤ 512)
    (t k : Nat)
    (ha : answer = ackPacket 0 ∧ j.opts.window = 1 ∨ ∃ e, Packet.fromBytes answer = .ok (.optionalAck e) ∧ Confirms (v.start j t).exts e) :
    512 ≤ blockSize [answer] ∧ 1 ≤ windowSize [answer] ∧
    ∃ st req, v.step j (.query (v.start j t)) { swift t k with recv := .dgram ep answer } =
        (st, (v.cfg.endpoint, req) :: if answer = ackPacket 0 then [] else [(ep, ackPacket 0)]) ∧
      SendAt ep file (blockSize [answer]) (windowSize [answer]) t 0 0 st := by
  have hopts := plain_requestOpts v j hp
  have hip : ep.ip = v.cfg.endpoint.ip := by
    rcases hep with rfl | h
    · rfl
    · exact h.1
  have hport : ¬ (ep ≠ v.cfg.endpoint ∧ v.cfg.allowPortChange = false) := by
    rintro ⟨h1, h2⟩
    rcases hep with h | h
    · exact h1 h
    · rw [h.2] at h2; cases h2
  have hrecv : ∀ b, (v.initialSock j.opts).1.recv b = some b := by intro b; rw [plain_sock v j hp]; rfl
  have hwrite : j.write = true := by unfold Job.write; rw [hj]
  have hack : Packet.fromBytes (ackPacket 0) = .ok (.ack 0) := by rw [← ack_bytes]; exact decode_ack _
  have hacc : ∃ ack o' first, v.reply j.write (v.requestOpts j) (v.start j t).used (v.start j t).initial answer = .accept ack o' none first ∧
      o'.window = windowSize [answer] := by
    rcases ha with ⟨rfl, h1⟩ | ⟨e, he, hc⟩
    · unfold Cli.reply
      rw [hack]
      simp only [hwrite, if_true]
      refine ⟨_, _, _, rfl, ?_⟩
      have hg : granted [ackPacket 0] = Exts.empty := by simp only [granted, hack]
      unfold windowSize
      rw [hg]
      show (v.requestOpts j).window = 1
      rw [hopts.2.1]
      exact h1
    · obtain ⟨o', h⟩ := confirms_accept (S := S) hopts.1 (by rw [hopts.2.2]; exact hb) (by rw [hopts.2.1]; exact hw.2) (by
        intro n hn
        apply hs n
        unfold Cli.requestOpts at hn
        rw [plain_sock v j hp, hj] at hn
        cases size with
        | none => exact .inr hn
        | some k =>
          simp only at hn
          split at hn
          · exact .inl hn
          · exact .inr hn) (keys := ⟨v.sessionPub, v.cfg.privateKey⟩) (used := (v.start j t).exts) (e := e) (.inl rfl) hc
        v.cfg.privateKey.isSome v.cfg.remoteKey
      have hacc : v.reply j.write (v.requestOpts j) (v.start j t).used (v.start j t).initial answer = .accept true o' none none := by
        unfold Cli.reply
        rw [he]
        simp only
        rw [show (v.start j t).used = (v.start j t).exts from rfl, h]
      obtain ⟨-, -, -, -, -, g6, -⟩ := cli_reply hopts.1 (by rw [hopts.2.1]; exact hw.1) (.inr ⟨e, he⟩) hacc
      exact ⟨true, o', none, hacc, g6 rfl⟩
  obtain ⟨ack, o', first, hacc, hwin⟩ := hacc
  obtain ⟨g1, g2, g3, g4, g5, -, -, g8, -⟩ := cli_reply hopts.1 (by rw [hopts.2.1]; exact hw.1) (by
    rcases ha with h | ⟨e, he, -⟩
    · exact .inl h.1
    · exact .inr ⟨e, he⟩) hacc
  have hroom : 516 ≤ (v.start j t).room := by show 516 ≤ max _ _; omega
  refine ⟨by omega, by omega, ?_⟩
  have hpay : o'.payload = o'.blockSize := by unfold Opts.payload; rw [g1]
  have hcfg := plain_cfg v o' g1 (windowSize [answer]) ⟨g4, by omega⟩ o'.payload
  rw [g2] at hcfg
  have hst : SendAt ep file (blockSize [answer]) (windowSize [answer]) t 0 0 (.up (v.cfgOf ⟨none, .none, [], o'.payload⟩ o') (recvBuffer o'.blockSize) ep
      ⟨Reader.new (v.kind o'.window) file o'.payload o'.window, 0, false, false⟩ t none) := by
    unfold SendAt
    rw [if_neg (by have := nblocks_pos file (blockSize [answer]); omega)]
    refine ⟨_, _, _, Mapper.new, rfl, hcfg, hwin, ?_, SInv.init (c := v.cfgOf ⟨none, .none, [], o'.payload⟩ o') ?_, rfl, rfl⟩
    · show 516 ≤ max _ _
      omega
    · intro hk
      unfold Cli.kind at hk
      split at hk
      · cases hk
      · split at hk
        · assumption
        · cases hk
  simp only [Cli.step, Cli.queryStep, swift, plain_put v j hp, hrecv]
  rw [List.take_of_length_le (by omega), if_neg (by rw [hip]; simp), if_neg hport, hacc]
  simp only [Cli.accepted, hj, accepted_cfg v j hp]
  have hem : ∀ n k p, (v.cfgOf ⟨none, .none, [], o'.payload⟩ o').emit n k p = some ⟨k, p.toBytes⟩ := by
    intro n k p; rfl
  simp only [hem, if_true, Option.map_some]
  cases ack with
  | true =>
    have hne : answer ≠ ackPacket 0 := g8.mp rfl
    have hl : (if answer = ackPacket 0 then [] else [(ep, ackPacket 0)]) = [(ep, ackPacket 0)] := if_neg hne
    rw [hl]
    exact ⟨_, _, rfl, hst⟩
  | false =>
    have heq : answer = ackPacket 0 := by
      by_cases h : answer = ackPacket 0
      · exact h
      · have := g8.mpr h; cases this
    have hl : (if answer = ackPacket 0 then [] else [(ep, ackPacket 0)]) = [] := if_pos heq
    rw [hl]
    exact ⟨_, _, rfl, hst⟩

/-- **C85**, uploads: on a network which loses nothing this client uploads to a server of C83 window after window; the server acknowledges each of them once. The
client sends each window at once: no time passes, nothing is sent twice, and at the end the server has the file and the client reports its size. The file may
have any number of blocks. If the server does not confirm options, the client must not have asked for a window: it would use it nevertheless. -/
theorem c85_upload (v : Cli S) (j : Job) (hp : Spec.NoEncryption j) (size : Option Nat) (file : Bytes) (hj : j.task = .upload size file)
    (hb : j.opts.blockSize ≤ 65535) (hw : 1 ≤ j.opts.window ∧ j.opts.window ≤ 65535) (hs : ∀ n, size = some n ∨ j.opts.fileSize = some n → n < 2 ^ 64)
    (ep : Ep) (hep : ep = v.cfg.endpoint ∨ ep.ip = v.cfg.endpoint.ip ∧ v.cfg.allowPortChange = true)
    (answer : Bytes) (hlen : answer.length ≤ 512) (t : Nat)
    (ha : answer = ackPacket 0 ∧ j.opts.window = 1 ∨ ∃ e, Packet.fromBytes answer = .ok (.optionalAck e) ∧ Confirms (v.start j t).exts e)
    (hwin : windowSize [answer] ≤ 10000) (age : Option Nat) (nonce N : Nat) (hN : N = file.length / blockSize [answer] + 1) (X : Send)
    (hX : X = (Send.init v j t).run v j ep answer age
      (sendStart t nonce ++ sendRounds t nonce (windowSize [answer]) N (windows N (windowSize [answer])))) :
    X.peer.done = true ∧ X.peer.out = file ∧ X.cli = .done (.ok (file.length, none)) [] ∧
    X.toPeer.length = (if ep = v.cfg.endpoint then 1 else 0) + (if answer = ackPacket 0 then 0 else 1) + N ∧
    X.toClient.length = 1 + windows N (windowSize [answer]) := by
  obtain ⟨b1, b2, st, req, hstep, hat⟩ := send_begin hp hj hb hw hs hep hlen t nonce ha
  have hN : N = nblocks file (blockSize [answer]) := hN
  rw [Send.run_append] at hX
  have hY : (Send.init v j t).run v j ep answer age (sendStart t nonce) =
      ⟨st, ⟨0, [], false⟩, (((v.cfg.endpoint, req) :: if answer = ackPacket 0 then [] else [(ep, ackPacket 0)]).filter (·.1 = ep)).map (fun d => ⟨d.2, 0⟩),
        [⟨answer, 0⟩]⟩ := by
    simp only [sendStart, Send.run, List.foldl_cons, List.foldl_nil, Send.init, Send.step, if_true]
    have hdl : deliver age [⟨answer, 0⟩] 0 (some 0) = some answer := deliver_zero age ⟨answer, 0⟩ []
    rw [hdl]
    have hr : received ep (some answer) (swift t nonce) = { swift t nonce with recv := .dgram ep answer } := rfl
    rw [hr, hstep]
    simp only [List.append_nil]
  rw [hY] at hX
  have hpeer : PeerAt file (blockSize [answer]) 0 ⟨0, [], false⟩ := by
    refine ⟨rfl, by simp [bytesIn], ?_⟩
    have := nblocks_pos file (blockSize [answer])
    simp only [Bool.false_eq_true, false_iff]
    omega
  obtain ⟨q1, q2, q3, q4⟩ := swift_windows (by omega) (age := age) t nonce ⟨b2, hwin⟩ hat hpeer _ N hN (Nat.le_refl _) X _ rfl hX
  have hws := (windows_spec (nblocks_pos file (blockSize [answer])) b2).1
  rw [← hN] at hws
  rw [Nat.min_eq_right hws] at q1 q2 q3
  refine ⟨q2.done.mpr hN, ?_, ?_, ?_, by rw [q4]; rfl⟩
  · rw [q2.out, hN, bytesIn_nblocks _ _ _ (by omega) (Nat.le_refl _)]
    exact List.take_of_length_le (l := file) (Nat.le_refl _)
  · unfold SendAt at q1
    rw [if_pos hN] at q1
    exact q1
  · rw [q3]
    congr 1
    by_cases he : ep = v.cfg.endpoint
    · subst he
      by_cases h0 : answer = ackPacket 0 <;> simp [h0]
    · have : ¬ v.cfg.endpoint = ep := fun h => he h.symm
      by_cases h0 : answer = ackPacket 0 <;> simp [h0, he, this]

end Tftp.Rfc

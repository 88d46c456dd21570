import Verif.EndWorld
import Verif.EndLink
import Verif.ServerAdmit
import Verif.ServerTimers
import Verif.ClientSecure
/-
C52, C53, the handshake: what the server makes of the client's request is understood by the client, and from then on both read each
other's datagrams in the same way.
-/
namespace Tftp
open Spec

variable {S : SigScheme}

/-- The socket of the handshake does not encrypt requests, and reads packets other than data as they are. -/
structure Parties.Open (v : Parties S) : Prop where
  send : ∀ nonce (p : Packet), (∀ b x, p ≠ .data b x) → v.sock.send nonce p.toBytes = .ok p.toBytes
  recv : ∀ p : Packet, (∀ b x, p ≠ .data b x) → v.sock.recv p.toBytes = some p.toBytes

/-- The socket of the handshake encrypts. -/
structure Parties.Closed (v : Parties S) : Prop where
  full : v.co.level = .full
  enc : v.sock.enc = some (v.srv.handshake v.cli.handshakePub)
  level : v.sock.level = .full
  pub : v.sock.pub = v.cli.handshakePub
  size : v.sock.blockSize = v.job.opts.blockSize
  key : v.srv.cfg.privateKey.isSome

theorem co_level (v : Parties S) : v.co.level = (v.cli.initialSock v.job.opts).2.level := by
  unfold Parties.co Cli.requestOpts
  simp only
  split
  · split <;> rfl
  · rfl

theorem co_block (v : Parties S) : v.co.blockSize = v.job.opts.blockSize := by
  have h : (v.cli.initialSock v.job.opts).2.blockSize = v.job.opts.blockSize := by
    unfold Cli.initialSock; split
    · rfl
    · split
      · rfl
      · simp only; split <;> rfl
  rw [← h]
  unfold Parties.co Cli.requestOpts
  simp only
  split
  · split <;> rfl
  · rfl

theorem co_window (v : Parties S) : v.co.window = v.job.opts.window := by
  have h : (v.cli.initialSock v.job.opts).2.window = v.job.opts.window := by
    unfold Cli.initialSock; split
    · rfl
    · split
      · rfl
      · simp only; split <;> rfl
  rw [← h]
  unfold Parties.co Cli.requestOpts
  simp only
  split
  · split <;> rfl
  · rfl

theorem co_retry (v : Parties S) : v.co.retry = v.job.opts.retry := by
  have h : (v.cli.initialSock v.job.opts).2.retry = v.job.opts.retry := by
    unfold Cli.initialSock; split
    · rfl
    · split
      · rfl
      · simp only; split <;> rfl
  rw [← h]
  unfold Parties.co Cli.requestOpts
  simp only
  split
  · split <;> rfl
  · rfl

theorem initial_size (v : Parties S) : (v.cli.initialSock v.job.opts).2.fileSize = v.job.opts.fileSize := by
  unfold Cli.initialSock; split
  · rfl
  · split
    · rfl
    · simp only; split <;> rfl

theorem co_none (v : Parties S) : v.co.level = .none ↔ v.job.opts.level = .none := by
  rw [co_level]
  unfold Cli.initialSock
  split
  · rename_i h; simp [h]
  · rename_i h
    split
    · simp [h]
    · simp only
      split
      · rename_i h2; simp [h2]
      · simp [h]

theorem co_size {v : Parties S} {late} (h : Honest v late) : ∀ n, v.co.fileSize = some n → n < 2 ^ 64 := by
  intro n hn
  have ht := h.task
  have hi := initial_size v
  unfold Parties.co Cli.requestOpts at hn
  simp only at hn
  split at hn
  · rename_i k file htask
    rw [htask] at ht
    split at hn
    · simp only [Option.some.injEq] at hn
      subst hn
      exact ht.1 k rfl
    · rw [hi] at hn; exact h.size n hn
  · rw [hi] at hn; exact h.size n hn

theorem co_download {v : Parties S} {late} (h : Honest v late) (hw : v.job.write = false) : v.co.fileSize = none ∨ v.co.fileSize = some 0 := by
  have ht := h.task
  have hi := initial_size v
  unfold Job.write at hw
  unfold Parties.co Cli.requestOpts
  simp only
  split at hw
  · cases hw
  · rename_i htask
    rw [htask] at ht ⊢
    simp only
    rw [hi]; exact ht

/-- One of the two. -/
theorem sock_cases {v : Parties S} {late} (h : Honest v late) : v.Open ∨ v.Closed := by
  by_cases h0 : v.job.opts.level = .none
  · left
    have : v.sock = ⟨none, .none, [], v.job.opts.blockSize⟩ := by unfold Parties.sock Cli.initialSock; rw [if_pos h0]
    exact ⟨fun nonce p _ => by rw [this]; rfl, fun p _ => by rw [this]; rfl⟩
  · cases hk : v.cli.cfg.remoteKey with
    | none =>
      left
      have : v.sock = ⟨none, .none, [], v.job.opts.blockSize⟩ := by unfold Parties.sock Cli.initialSock; rw [if_neg h0, hk]
      exact ⟨fun nonce p _ => by rw [this]; rfl, fun p _ => by rw [this]; rfl⟩
    | some k =>
      obtain ⟨⟨a, ha, -⟩, hc⟩ := h.known k hk
      by_cases h1 : v.job.opts.level = .protocol ∨ v.job.opts.level = .full
      · right
        have e : v.cli.initialSock v.job.opts = (⟨some (v.cli.handshake k), .full, v.cli.handshakePub, v.job.opts.blockSize⟩,
            { v.job.opts with level := .full }) := by
          unfold Cli.initialSock
          rw [if_neg h0, hk]
          rcases h1 with h1 | h1
          · simp [h1]
          · have h2 : v.job.opts.level ≠ .protocol := by rw [h1]; simp
            simp only [h1]
            generalize v.job.opts = o at h1
            obtain ⟨b, r, f, l, w⟩ := o
            simp only at h1
            subst h1
            rfl
        refine ⟨by rw [co_level, e], ?_, ?_, ?_, ?_, by rw [ha]; rfl⟩ <;> unfold Parties.sock <;> rw [e]
        rw [hc]
      · left
        have h2 : v.job.opts.level ≠ .protocol := fun x => h1 (.inl x)
        have h3 : v.job.opts.level ≠ .full := fun x => h1 (.inr x)
        have e : v.sock = ⟨some (v.cli.handshake k), v.job.opts.level, v.cli.handshakePub, v.job.opts.blockSize⟩ := by
          unfold Parties.sock Cli.initialSock
          rw [if_neg h0, hk]
          simp only [if_neg h2]
        constructor
        · intro nonce p hp
          have := not_data_type p hp
          rw [e]
          unfold Sock.send
          cases hl : v.job.opts.level <;> simp_all
        · intro p hp
          have := not_data_type p hp
          rw [e]
          unfold Sock.recv
          cases hl : v.job.opts.level <;> simp_all [unprotect]

theorem request_not_data (j : Job) (e : Exts) : ∀ b x, j.request e ≠ .data b x := by
  intro b x
  unfold Job.request
  split <;> simp

theorem request_type (j : Job) (e : Exts) : packetType (j.request e).toBytes = some .read ∨ packetType (j.request e).toBytes = some .write := by
  unfold Job.request
  split
  · right; simp [packetType, Packet.toBytes, be16, readU16, PacketType.repr]; decide
  · left; simp [packetType, Packet.toBytes, be16, readU16, PacketType.repr]; decide

theorem request_decodes {v : Parties S} {late} (h : Honest v late) {e : Exts} (he : v.ReqExts e) :
    Packet.fromBytes (v.job.request e).toBytes = .ok (v.job.request e) := by
  have hs : Spec.ShortValues e := by
    rcases he with rfl | ⟨-, rfl⟩
    · exact createExtensions_short _ _ h.sessionPub ⟨by rw [show v.cli.requestOpts v.job = v.co from rfl, co_block]; exact h.blockSize,
        by rw [show v.cli.requestOpts v.job = v.co from rfl, co_window]; exact h.window.2, co_size h⟩
        (by rw [show v.cli.requestOpts v.job = v.co from rfl, co_retry]; exact h.retry)
    · intro k x hx; cases hx
  apply c01_round_trip
  unfold Job.request
  split <;> exact ⟨h.name, fun k x hx => (hs k x hx).2⟩

/-- What the server reads. -/
theorem request_read {v : Parties S} {late} (h : Honest v late) {dg : Bytes} (hd : v.IsReq dg) :
    ∃ e, v.ReqExts e ∧ v.srv.requestOf dg = some (v.job.write, ⟨v.job.name, e⟩) ∧
      (v.Open ∧ (v.srv.openRequest dg).1 = none ∨
       v.Closed ∧ (v.srv.openRequest dg).1 = some (v.srv.handshake v.cli.handshakePub) ∧ e = v.asked) := by
  obtain ⟨e, i, he, hput⟩ := hd
  have hdec := request_decodes h he
  have fin : (v.srv.openRequest dg).2 = (v.job.request e).toBytes → v.srv.requestOf dg = some (v.job.write, ⟨v.job.name, e⟩) := by
    intro h2
    unfold Srv.requestOf
    rw [h2, hdec]
    unfold Job.request
    cases v.job.write <;> rfl
  have hsend : v.sock.send (v.cli.nonce i) (v.job.request e).toBytes = .ok dg := by
    unfold Cli.put at hput
    split at hput
    · rename_i d hd
      rw [hd]
      simpa using hput
    · cases hput
  refine ⟨e, he, ?_⟩
  rcases sock_cases h with ho | hc
  · rw [ho.send _ _ (request_not_data _ _)] at hsend
    cases hsend
    have hp := h.plain e (by rcases he with rfl | ⟨-, rfl⟩ <;> first | exact .inr rfl | exact .inl rfl)
    exact ⟨fin (by rw [hp]), .inl ⟨ho, by rw [hp]⟩⟩
  · have hne : (v.job.request e).toBytes ≠ [] := by unfold Job.request; split <;> simp [Packet.toBytes, be16]
    have hse : sealInitial (v.srv.handshake v.cli.handshakePub) (v.cli.nonce i) v.cli.handshakePub (v.job.request e).toBytes
        (v.job.opts.blockSize + 4) = .ok dg := by
      unfold Sock.send at hsend
      rw [hc.level, hc.enc] at hsend
      simp only [request_type, if_true, hc.pub, hc.size] at hsend
      exact hsend
    have hfit : (v.job.request e).toBytes.length + 73 ≤ v.job.opts.blockSize + 4 := by
      apply Nat.le_of_not_lt
      intro hlt
      unfold sealInitial at hse
      split at hse
      · cases hse
      · rw [(c26_padding_round_trip _ _).2 (.inr (by omega))] at hse
        cases hse
    have hop := openRequest_sealed v.srv hc.key _ _ _ _ _ (v.cli.nonce_length i) h.handshakePub hne hfit hse
    refine ⟨fin (by rw [hop]), .inr ⟨hc, by rw [hop], ?_⟩⟩
    rcases he with he | ⟨hl, -⟩
    · exact he
    · rw [hc.full] at hl; cases hl

/-- The level a server uses. -/
theorem nego_level {cfg : SrvCfg S} {session : Bytes} {hs : Level} {e : Exts} {kind u o k}
    (h : srvNegotiate cfg session hs e kind = .ok (u, o, k)) :
    k = none ∧ o.level = hs ∨ k.isSome ∧ (o.level = .data ∨ o.level = .protocol ∨ o.level = .full) ∧
      (∀ l, optParse (e .encryptionLevel) Level.parse = .ok (some l) → o.level = srvLevel l) := by
  obtain ⟨u0, o0, hp, -, hk⟩ := srvNegotiate_ok h
  have hol : o.level = o0.level := by rcases hk with ⟨-, -, rfl⟩ | ⟨a, -, -, rfl⟩ <;> rfl
  rw [hol]
  obtain ⟨u1, o1, cl, hN, hcl, -, hcase⟩ := srvParse_ok hp
  rcases hcase with ⟨-, -, -, rfl, rfl⟩ | ⟨l, remote, auth, rfl, hl, -, -, -, -, -, rfl, rfl⟩
  · exact .inl ⟨rfl, hN.level⟩
  · refine .inr ⟨rfl, ?_, ?_⟩
    · simp only
      clear hp hcl
      cases l <;> simp_all [srvLevel]
    · intro l' hl'
      rw [hcl] at hl'
      cases hl'
      rfl

/-- Both sides mean the same. -/
structure Agreed (v : Parties S) (c : Conn) (o : Opts) (rk : Option RemoteKeys) : Prop where
  bs : o.payload = c.opts.payload
  block : o.blockSize = c.opts.blockSize
  window : 1 ≤ o.window ∧ o.window ≤ v.job.opts.window
  dec : (v.cli.cfgOf (v.cli.configure v.sock (v.job.opts.level ≠ .none) o rk) o).codec.dec = (v.srv.transfer c).codec.dec

/-- What an acceptance means to the client. -/
structure Accepts (v : Parties S) (c : Conn) (d : Bytes) : Prop where
  room : d.length ≤ recvBuffer v.co.blockSize
  room' : d.length ≤ recvBuffer c.opts.blockSize
  fine : ∀ file bs n, DataFine (v.srv.transfer c).codec.dec file bs n 0 d ∧ AckFine (v.srv.transfer c).codec.dec file bs n 0 d
  reply : ∃ b, v.sock.recv d = some b ∧ ∀ used initial, v.ReqExts used →
    match v.cli.reply v.job.write v.co used initial b with
    | .accept _ o rk first => first = none ∧ Agreed v c o rk
    | .again => False
    | .fail _ ps => ∀ p ∈ ps, ∀ i ok d', v.cli.put v.sock i ok p = some d' → ∀ file bs n mark,
        DataFine (v.srv.transfer c).codec.dec file bs n mark d' ∧ AckFine (v.srv.transfer c).codec.dec file bs n mark d'
  asked : ∀ b, v.sock.recv d = some b → ∀ initial, ∃ ack o rk, v.cli.reply v.job.write v.co v.asked initial b = .accept ack o rk none ∧
    (v.job.write = false → o.fileSize.getD 0 ≤ c.opts.fileSize.getD 0)

theorem cfgOf_dec_session (v : Cli S) (k : Sock) (o : Opts) (rk : RemoteKeys) (hl : o.level = .data ∨ o.level = .protocol ∨ o.level = .full) :
    (v.cfgOf (v.configure k true o (some rk)) o).codec.dec = fun d => match unprotect (v.session rk.session) o.level d with
      | .ok b => some b
      | _ => none := by
  unfold Cli.configure
  have : o.level = .protocol ∨ o.level = .data ∨ o.level = .full := by rcases hl with h | h | h <;> simp [h]
  simp only [this, if_true, Cli.cfgOf, Codec.level]
  rfl

theorem cfgOf_dec_plain (v : Cli S) (k : Sock) (b : Bool) (o : Opts) (hk : k.enc = none) :
    (v.cfgOf (v.configure k b o none) o).codec.dec = some := by
  unfold Cli.configure
  cases b <;> simp only [Cli.cfgOf, hk, Codec.plain]

theorem transfer_dec_some (v : Srv S) (c : Conn) (A : Aead) (h : c.enc = some A) :
    (v.transfer c).codec.dec = fun d => match unprotect A c.opts.level d with
      | .ok b => some b
      | _ => none := by
  simp only [Srv.transfer, h, Codec.level]
  rfl

theorem transfer_dec_none (v : Srv S) (c : Conn) (h : c.enc = none) : (v.transfer c).codec.dec = some := by
  simp only [Srv.transfer, h, Codec.plain]

theorem payload_of {o o' : Opts} (h1 : o.blockSize = o'.blockSize) (h2 : o.level = o'.level) : o.payload = o'.payload := by
  unfold Opts.payload; rw [h1, h2]

theorem payload_471 {o : Opts} (h : 512 ≤ o.blockSize) : 471 ≤ o.payload ∧ o.payload ≤ o.blockSize := by
  unfold Opts.payload; split <;> omega

theorem created_default (keys : InitialKeys S) : createExtensions Opts.default keys = Exts.empty := by
  rw [createExtensions_eq]
  funext e
  cases e <;> rfl

/-- A new connection for a request of the client. -/
theorem new_conn {v : Parties S} {late} (h : Honest v late) {t : Nat} {dg : Bytes} {io : NewIo} (hio : Os v late io) (hd : v.IsReq dg)
    {c : Conn} {out : List Bytes} (hres : (v.srv.newConn t dg io).result = .ok (c, out))
    (hcross : c.opts.level = .protocol ∨ c.opts.level = .full → ∀ d ∈ out, (v.srv.transfer c).codec.dec d = none) :
    (512 ≤ c.opts.blockSize ∧ c.opts.blockSize ≤ 65535) ∧ 1 ≤ c.opts.window ∧ c.opts.window ≤ v.job.opts.window ∧
    (∃ name, normalizeName v.job.name = some name ∧
      if v.job.write then io.openWrite name = true ∧ c.side = .writer ⟨Writer.new, 0, 0, false, false⟩
      else ∃ size file, io.openRead name = some (size, file) ∧
        c.side = .reader ⟨Reader.new (v.srv.kind c.opts.window) file c.opts.payload c.opts.window, 0, false, false⟩) ∧
    ∀ d ∈ out, Accepts v c d := by
  obtain ⟨e, he, hreq, hway⟩ := request_read h hd
  obtain ⟨write, r, used, keys, name, kind, g1, g2, g3, g4, g5, -, -, -, -, g6⟩ := newConn_ok hres
  rw [hreq] at g1
  simp only [Option.some.injEq, Prod.mk.injEq] at g1
  obtain ⟨hw, hr⟩ := g1
  subst hw
  subst hr
  simp only at g2 g3
  have lim := c16_server_limits v.srv.cfg h.maxBlock.1 h.maxWindow.1 _ _ _ _ _ _ _ g2
  have hb : 512 ≤ c.opts.blockSize ∧ c.opts.blockSize ≤ 65535 := ⟨lim.1.1, by have := lim.1.2; have := h.maxBlock.2; omega⟩
  have hpay := payload_471 hb.1
  have hkind : ∀ a, kind = .read a → (v.co.fileSize = none ∨ v.co.fileSize = some 0) ∧ ∀ s, a = some s → s < 2 ^ 64 := by
    intro a ha
    cases hwr : v.job.write with
    | true =>
      rw [hwr] at g5
      simp only [if_true] at g5
      rw [g5.2.1] at ha; cases ha
    | false =>
      rw [hwr] at g5
      simp only [Bool.false_eq_true, if_false] at g5
      obtain ⟨size, file, f1, f2, -⟩ := g5
      rw [f2] at ha; cases ha
      exact ⟨co_download h hwr, fun s hs => hio.size _ _ _ (by rw [f1, hs])⟩
  -- what the client makes of the confirmed options
  have hwinc : c.opts.window ≤ v.job.opts.window := by
    rcases lim.2.2.2.2.2.1 with hw | ⟨-, hw⟩
    · have hex := lim.2.2.2.1 .windowSize (by rw [hw]; rfl)
      rcases he with rfl | ⟨-, rfl⟩
      · have hq : Spec.requested v.asked .windowSize 65535 = some v.co.window := by
          unfold Parties.asked at hex ⊢
          rw [createExtensions_eq] at hex ⊢
          simp only [Spec.requested, Spec.request] at hex ⊢
          split at hex
          · cases hex
          · rename_i h1
            rw [if_neg h1]
            exact parse_decimal _ _ (by rw [show v.cli.requestOpts v.job = v.co from rfl, co_window]; exact h.window.2)
        have := lim.2.2.2.2.2.2.2.2 _ hq (by rw [hw]; rfl)
        rw [co_window] at this
        exact this
      · cases hex
    · have := h.window.1; omega
  have hhs : (v.srv.arrived dg = .full ∧ v.co.level = .full) ∨ v.srv.arrived dg = .none := by
    unfold Srv.arrived
    rcases hway with ⟨-, hn⟩ | ⟨hc, hs, -⟩
    · rw [hn]; exact .inr rfl
    · rw [hs]; exact .inl ⟨rfl, hc.full⟩
  have hco : v.co.blockSize ≤ 65535 ∧ 1 ≤ v.co.window ∧ v.co.window ≤ 65535 ∧ ∀ s, v.co.fileSize = some s → s < 2 ^ 64 :=
    ⟨by rw [co_block]; exact h.blockSize, by rw [co_window]; exact h.window.1, by rw [co_window]; exact h.window.2, co_size h⟩
  have hlevel := nego_level g2
  have hnone : v.co.level = .none → c.opts.level = .none ∧ c.enc = none ∧ keys = none := by
    intro hl
    have harr : v.srv.arrived dg = .none := by
      rcases hhs with ⟨-, h1⟩ | h1
      · rw [hl] at h1; cases h1
      · exact h1
    have hop : (v.srv.openRequest dg).1 = none := by
      rcases hway with ⟨-, hn⟩ | ⟨hc, -⟩
      · exact hn
      · rw [hc.full] at hl; cases hl
    have hk : keys = none := by
      rcases hlevel with ⟨h1, -⟩ | ⟨h1, -⟩
      · exact h1
      · exfalso
        obtain ⟨u0, o0, hp, -, -⟩ := srvNegotiate_ok g2
        obtain ⟨u1, o1, cl, -, hcl, -, hcase⟩ := srvParse_ok hp
        rcases hcase with ⟨-, -, -, -, rfl⟩ | ⟨l, remote, auth, rfl, hl', -⟩
        · cases h1
        · have : e .encryptionLevel = none := by
            rcases he with rfl | ⟨-, rfl⟩
            · unfold Parties.asked
              rw [createExtensions_eq]
              simp only [Spec.request]
              rw [if_pos (show (v.cli.requestOpts v.job).level = .none from hl)]
            · rfl
          rw [this] at hcl
          simp [optParse] at hcl
    refine ⟨?_, ?_, hk⟩
    · rcases hlevel with ⟨-, h1⟩ | ⟨h1, -⟩
      · rw [h1, harr]
      · rw [hk] at h1; cases h1
    · rw [g4, hk]; exact hop
  have hplainsock : v.co.level = .none → v.sock.enc = none := by
    intro hl
    unfold Parties.sock Cli.initialSock
    rw [if_pos ((co_none v).mp hl)]
  -- the option acknowledgement, if the request had the client's options
  have hagree : e = v.asked → ∃ o rk, cliOack S v.cli.cfg.privateKey.isSome v.cli.cfg.remoteKey v.asked v.co used = (.ok (o, rk), []) ∧
      Agreed v c o rk ∧ (v.job.write = false → o.fileSize.getD 0 ≤ c.opts.fileSize.getD 0) := by
    rintro rfl
    obtain ⟨⟨o, rk, a1, a2, a3, a4, a5, a6, a7⟩, -⟩ := c18_agreement v.srv.cfg h.maxBlock h.maxWindow v.co
      (⟨v.cli.sessionPub, v.cli.cfg.privateKey⟩ : InitialKeys S) h.sessionPub io.sessionPub hio.key hco v.cli.cfg.remoteKey
      (fun p hp => (h.known p hp).1) (v.srv.arrived dg) hhs kind hkind used c.opts keys g2
    refine ⟨o, rk, a1, ⟨payload_of a2 a5, a2, by rw [a3]; exact ⟨lim.2.1.1, hwinc⟩, ?_⟩, ?_⟩
    case refine_2 =>
      intro hwr
      rw [hwr] at g5
      simp only [Bool.false_eq_true, if_false] at g5
      obtain ⟨size, file, -, f2, -⟩ := g5
      rw [a7 size f2]
      obtain ⟨u0, o0, -, -, hk⟩ := srvNegotiate_ok g2
      rcases hk with ⟨hk, -⟩ | ⟨a, hk, -, hk2⟩
      · rw [f2] at hk; cases hk
      · rw [f2] at hk; cases hk
        rw [hk2]
        split <;> simp
    rcases a6 with ⟨hl, hk, rfl⟩ | ⟨auth, hk, rfl⟩
    · rw [cfgOf_dec_plain _ _ _ _ (hplainsock hl), transfer_dec_none _ _ (hnone hl).2.1]
    · have hlv : c.opts.level = .data ∨ c.opts.level = .protocol ∨ c.opts.level = .full := by
        rcases hlevel with ⟨h1, -⟩ | ⟨-, h1, -⟩
        · rw [hk] at h1; cases h1
        · exact h1
      have hne : v.job.opts.level ≠ .none := by
        intro h0
        have := (hnone ((co_none v).mpr h0)).1
        rw [this] at hlv
        simp at hlv
      have henc : c.enc = some (v.cli.session io.sessionPub) := by
        rw [g4, hk, ← hio.exchange]
      rw [transfer_dec_some _ _ _ henc]
      have : decide (v.job.opts.level ≠ Level.none) = true := by simpa using hne
      rw [this, cfgOf_dec_session _ _ _ _ (by rw [a5]; exact hlv), a5]
  -- nothing confirmed
  have hbare : used.isEmpty = true → v.co.level = .none ∧ (cliPlain v.co).blockSize = c.opts.blockSize ∧ Agreed v c (cliPlain v.co) none := by
    intro hu
    have hu := (exts_isEmpty_iff used).mp hu
    have hc : v.co.level = .none ∧ 512 = c.opts.blockSize := by
      rcases he with rfl | ⟨hl, rfl⟩
      · obtain ⟨-, a2⟩ := c18_agreement v.srv.cfg h.maxBlock h.maxWindow v.co
          (⟨v.cli.sessionPub, v.cli.cfg.privateKey⟩ : InitialKeys S) h.sessionPub io.sessionPub hio.key hco v.cli.cfg.remoteKey
          (fun p hp => (h.known p hp).1) (v.srv.arrived dg) hhs kind hkind used c.opts keys g2
        obtain ⟨b1, -, b3, b4⟩ := a2 hu
        refine ⟨?_, b1⟩
        rcases hlevel with ⟨-, h1⟩ | ⟨h1, -⟩
        · apply Classical.byContradiction
          intro hne
          obtain ⟨u0, o0, hp, -, hk⟩ := srvNegotiate_ok g2
          obtain ⟨u1, o1, cl, -, hcl, -, hcase⟩ := srvParse_ok hp
          have hcl2 : cl = some v.co.level := by
            unfold Parties.asked at hcl
            rw [createExtensions_eq] at hcl
            simp only [Spec.request] at hcl
            rw [if_neg (show ¬ (v.cli.requestOpts v.job).level = .none from hne)] at hcl
            have : cl = some (v.cli.requestOpts v.job).level := by simpa [optParse, levelText_parse] using hcl.symm
            exact this
          rcases hcase with ⟨hg, -⟩ | ⟨l, remote, auth, -, -, -, -, -, -, -, -, hkk⟩
          · rw [hcl2] at hg; exact hne hg
          · rw [hkk] at b4; cases b4
        · rw [b4] at h1; cases h1
      · refine ⟨hl, ?_⟩
        have := lim.2.2.2.2.1
        rw [hu] at this
        rcases this with hx | ⟨-, hx⟩
        · cases hx
        · exact hx.symm
    refine ⟨hc.1, hc.2, ?_, hc.2, ?_, ?_⟩
    · exact payload_of hc.2 (by rw [(hnone hc.1).1]; exact hc.1)
    · show 1 ≤ v.co.window ∧ v.co.window ≤ _
      rw [co_window]; exact ⟨h.window.1, Nat.le_refl _⟩
    · rw [cfgOf_dec_plain _ _ _ _ (hplainsock hc.1), transfer_dec_none _ _ (hnone hc.1).2.1]
  refine ⟨hb, lim.2.1.1, hwinc, ⟨name, g3, ?_⟩, ?_⟩
  · cases hwr : v.job.write with
    | true =>
      rw [hwr] at g5
      simp only [if_true] at g5 ⊢
      exact ⟨g5.1, g5.2.2⟩
    | false =>
      rw [hwr] at g5
      simp only [Bool.false_eq_true, if_false] at g5 ⊢
      obtain ⟨size, file, f1, -, f3⟩ := g5
      exact ⟨size, file, f1, f3⟩
  · intro d hdm
    -- the acceptance
    obtain ⟨p, hp, hpd, henc⟩ : ∃ p, (p = Packet.ack 0 ∧ used.isEmpty = true ∧ v.job.write = true ∨ p = Packet.optionalAck used ∧ used.isEmpty = false) ∧
        (∀ b x, p ≠ .data b x) ∧
        (v.srv.transfer { c with enc := (v.srv.openRequest dg).1 }).codec.enc io.nonce p.toBytes = some d := by
      cases hu : used.isEmpty with
      | true =>
        rw [hu] at g6
        simp only [if_true] at g6
        cases hwr : v.job.write with
        | true =>
          rw [hwr] at g6
          simp only [if_true] at g6
          obtain ⟨d', h1, rfl⟩ := g6
          rw [List.mem_singleton] at hdm
          subst hdm
          exact ⟨_, .inl ⟨rfl, rfl, rfl⟩, by simp, h1⟩
        | false =>
          rw [hwr] at g6
          simp only [Bool.false_eq_true, if_false] at g6
          rw [g6] at hdm; cases hdm
      | false =>
        rw [hu] at g6
        simp only [Bool.false_eq_true, if_false] at g6
        obtain ⟨d', h1, rfl⟩ := g6
        rw [List.mem_singleton] at hdm
        subst hdm
        exact ⟨_, .inr ⟨rfl, rfl⟩, by simp, h1⟩
    have hsmall : p.toBytes.length ≤ 311 := by
      rcases hp with ⟨rfl, -⟩ | ⟨rfl, -⟩
      · simp [Packet.toBytes, be16]
      · exact c28_oack_size v.srv.cfg h.maxBlock.2 h.maxWindow.2 _ hio.key _ _ _ (fun s hs => (hkind _ hs).2 s rfl) _ _ _ g2
    have hshort := srvNegotiate_short v.srv.cfg h.maxBlock.2 h.maxWindow.2 _ hio.key _ _ _ (fun s hs => (hkind _ hs).2 s rfl) _ _ _ g2
    have hpdec : Packet.fromBytes p.toBytes = .ok p := by
      rcases hp with ⟨rfl, -⟩ | ⟨rfl, hu⟩
      · exact decode_ack 0
      · refine c01_round_trip _ ⟨?_, fun k x hx => (hshort k x hx).2⟩
        apply Classical.byContradiction
        intro hcon
        have : used.isEmpty = true := by
          rw [exts_isEmpty_iff]
          intro k
          cases hk : used k with
          | none => rfl
          | some x => exact absurd ⟨k, by rw [hk]; rfl⟩ hcon
        rw [this] at hu; cases hu
    -- its size and how the client reads it
    have hread : d.length ≤ recvBuffer v.co.blockSize ∧ d.length ≤ recvBuffer c.opts.blockSize ∧ v.sock.recv d = some p.toBytes ∧
        ((v.srv.transfer c).codec.dec d = none ∨ (v.srv.transfer c).codec.dec d = some p.toBytes) := by
      rcases hway with ⟨ho, hn⟩ | ⟨hc, hs, rfl⟩
      · rw [hn] at henc
        simp only [Srv.transfer, Codec.plain, Option.some.injEq] at henc
        subst henc
        refine ⟨by unfold recvBuffer; omega, by unfold recvBuffer; omega, ho.recv p hpd, ?_⟩
        have hnd := not_data_type p hpd
        cases hce : c.enc with
        | none => right; rw [transfer_dec_none _ _ hce]
        | some A =>
          rw [transfer_dec_some _ _ _ hce]
          by_cases hlv : c.opts.level = .protocol ∨ c.opts.level = .full
          · left
            have := hcross hlv _ hdm
            rw [transfer_dec_some _ _ _ hce] at this
            exact this
          · right
            cases hl : c.opts.level <;> simp_all [unprotect]
      · have hkey : keys.isSome := by
          rcases hlevel with ⟨h1, -⟩ | ⟨h1, -⟩
          · exfalso
            obtain ⟨u0, o0, hp', -, -⟩ := srvNegotiate_ok g2
            obtain ⟨u1, o1, cl, -, hcl, -, hcase⟩ := srvParse_ok hp'
            have hcl2 : cl = some Level.full := by
              unfold Parties.asked at hcl
              rw [createExtensions_eq] at hcl
              simp only [Spec.request] at hcl
              have hf : (v.cli.requestOpts v.job).level = .full := hc.full
              rw [if_neg (by rw [hf]; simp), hf] at hcl
              simpa [optParse, levelText_parse] using hcl.symm
            rcases hcase with ⟨hg, -⟩ | ⟨l, remote, auth, -, -, -, -, -, -, -, -, hkk⟩
            · rw [hcl2] at hg; cases hg
            · rw [hkk] at h1; cases h1
          · exact h1
        have hfull : c.opts.level = .full := by
          rcases hlevel with ⟨h1, -⟩ | ⟨-, -, h1⟩
          · rw [h1] at hkey; cases hkey
          · apply h1 .full
            unfold Parties.asked
            rw [createExtensions_eq]
            simp only [Spec.request]
            have hf : (v.cli.requestOpts v.job).level = .full := hc.full
            rw [if_neg (by rw [hf]; simp), hf]
            simp [optParse, levelText_parse]
        have hdec : v.sock.recv d = some p.toBytes := by
          have := (v.srv.transfer { c with enc := (v.srv.openRequest dg).1 }).codec.dec_enc _ _ _ henc
          rw [transfer_dec_some _ _ _ hs] at this
          unfold Sock.recv
          rw [hc.enc, hc.level]
          simp only
          simp only [hfull] at this
          exact this
        have hpr : protect (v.srv.handshake v.cli.handshakePub) c.opts.level (c.opts.payload + 4) (v.srv.nonce io.nonce) p.toBytes = .ok d := by
          simp only [Srv.transfer, hs, Codec.level] at henc
          split at henc
          · rename_i x hx
            simp only [Option.some.injEq] at henc
            rw [hx, henc]
          · cases henc
        have hlen := c28_datagram_size _ c.opts hb.1 _ (v.srv.nonce_length _) p d (.inr ⟨hpd, by omega⟩) hpr
        obtain ⟨o, rk, a1, a2, -⟩ := hagree rfl
        have hcl := c17_client_limits _ _ _ _ _ _ _ _ _ a1
        refine ⟨?_, hlen.2.1, hdec, .inl (hcross (.inr hfull) _ hdm)⟩
        have hbl := a2.block
        unfold recvBuffer
        have h1 := hlen.1
        rcases hcl.2.1 with h2 | ⟨-, h2⟩ <;> omega
    obtain ⟨r1, r2, r3, r4⟩ := hread
    refine ⟨r1, r2, ?_, ⟨p.toBytes, r3, ?_⟩, ?_⟩
    · intro file bs n
      rcases r4 with r4 | r4
      · exact fine_of_unreadable r4 _ _ _ _
      · rcases hp with ⟨rfl, -⟩ | ⟨rfl, -⟩
        · exact ⟨dataFine_of_ack r4 _ _ _ _, ackFine_zero r4 _ _ _⟩
        · exact fine_of_packet r4 hpdec (by simp) (by simp) _ _ _ _
    · intro used' initial hused'
      rcases hp with ⟨rfl, hu, hwr⟩ | ⟨rfl, hu⟩
      · simp only [Cli.reply, hpdec, hwr, if_true]
        exact ⟨trivial, (hbare hu).2.2⟩
      · simp only [Cli.reply, hpdec]
        have herr : ∀ v1 : v.co.level = .none, ∀ i ok d', v.cli.put v.sock i ok
            (.error .illegalOperation (ascii "Server sent options not initialized by client")) = some d' → ∀ file bs n mark,
            DataFine (v.srv.transfer c).codec.dec file bs n mark d' ∧ AckFine (v.srv.transfer c).codec.dec file bs n mark d' := by
          intro hl i ok d' hput file bs n mark
          have hs := hplainsock hl
          have hd' : d' = (Packet.error .illegalOperation (ascii "Server sent options not initialized by client")).toBytes := by
            unfold Cli.put Sock.send at hput
            rw [hs] at hput
            cases ok <;> (cases hlv : v.sock.level <;> rw [hlv] at hput <;> simp at hput) <;> exact hput.symm
          subst hd'
          refine fine_of_packet (p := .error .illegalOperation (ascii "Server sent options not initialized by client")) ?_ ?_ (by simp) (by simp) _ _ _ _
          · rw [transfer_dec_none _ _ (hnone hl).2.1]
          · exact c01_round_trip _ ⟨by decide +kernel, by decide +kernel⟩
        rcases hused' with rfl | ⟨hl, rfl⟩
        · rcases he with rfl | ⟨hl, rfl⟩
          · obtain ⟨o, rk, a1, a2, -⟩ := hagree rfl
            rw [a1]
            exact ⟨rfl, a2⟩
          · -- a request without options has nothing to confirm
            exfalso
            have : used.isEmpty = true := by
              rw [exts_isEmpty_iff]
              intro k
              cases hk : used k with
              | none => rfl
              | some x => have := lim.2.2.2.1 k (by rw [hk]; rfl); cases this
            rw [this] at hu; cases hu
        · have hval : validateExtensions used Exts.empty = false := by
            cases hv : validateExtensions used Exts.empty with
            | false => rfl
            | true =>
              exfalso
              rw [validateExtensions_iff] at hv
              have : used.isEmpty = true := by
                rw [exts_isEmpty_iff]
                intro k
                cases hk : used k with
                | none => rfl
                | some x => have := hv k (by rw [hk]; rfl); cases this
              rw [this] at hu; cases hu
          simp only [cliOack, hval, Bool.false_eq_true, if_false, List.mem_singleton]
          intro p hp i ok d' hput
          subst hp
          exact herr hl i ok d' hput
    · intro b hb initial
      rw [r3] at hb; cases hb
      rcases hp with ⟨rfl, hu, hwr⟩ | ⟨rfl, hu⟩
      · simp only [Cli.reply, hpdec, hwr, if_true]
        exact ⟨_, _, _, rfl, fun hx => by cases hx⟩
      · simp only [Cli.reply, hpdec]
        rcases he with rfl | ⟨hl, rfl⟩
        · obtain ⟨o, rk, a1, -, a3⟩ := hagree rfl
          rw [a1]
          exact ⟨_, _, _, rfl, a3⟩
        · exfalso
          have : used.isEmpty = true := by
            rw [exts_isEmpty_iff]
            intro k
            cases hk : used k with
            | none => rfl
            | some x => have := lim.2.2.2.1 k (by rw [hk]; rfl); cases this
          rw [this] at hu; cases hu

/-- If the handshake is encrypted, so is the session. -/
theorem closed_full {v : Parties S} {late} (h : Honest v late) (hc : v.Closed) {t : Nat} {dg : Bytes} {io : NewIo} (hd : v.IsReq dg)
    {c : Conn} {out : List Bytes} (hres : (v.srv.newConn t dg io).result = .ok (c, out)) : c.opts.level = .full := by
  obtain ⟨e, he, hreq, -⟩ := request_read h hd
  obtain ⟨write, r, used, keys, name, kind, g1, g2, -⟩ := newConn_ok hres
  rw [hreq] at g1
  simp only [Option.some.injEq, Prod.mk.injEq] at g1
  obtain ⟨-, rfl⟩ := g1
  have he : e = v.asked := by
    rcases he with he | ⟨hl, -⟩
    · exact he
    · rw [hc.full] at hl; cases hl
  subst he
  have hask : optParse (v.asked .encryptionLevel) Level.parse = .ok (some .full) := by
    unfold Parties.asked
    rw [createExtensions_eq]
    simp only [Spec.request]
    have hf : (v.cli.requestOpts v.job).level = .full := hc.full
    rw [if_neg (by rw [hf]; simp), hf]
    simp [optParse, levelText_parse]
  rcases nego_level g2 with ⟨h1, -⟩ | ⟨-, -, h1⟩
  · exfalso
    obtain ⟨u0, o0, hp', -, -⟩ := srvNegotiate_ok g2
    obtain ⟨u1, o1, cl, -, hcl, -, hcase⟩ := srvParse_ok hp'
    rw [hask] at hcl
    rcases hcase with ⟨hg, -⟩ | ⟨l, remote, auth, -, -, -, -, -, -, -, -, hkk⟩
    · have : cl = some .full := by simpa using hcl.symm
      rw [this] at hg; cases hg
    · rw [hkk] at h1; cases h1
  · exact h1 .full hask

/-- A refusal of a request which was not encrypted is an error packet. -/
theorem replies_plain {v : Srv S} {t : Nat} {dg : Bytes} {io : NewIo} (h : (v.openRequest dg).1 = none) :
    ∀ d ∈ (v.newConn t dg io).replies, ∃ code, d = (Packet.error code []).toBytes := by
  have hr : ∀ o code, ∀ d ∈ v.replyError none o io.nonce code, ∃ code, d = (Packet.error code []).toBytes := by
    intro o code d hd
    unfold Srv.replyError at hd
    split at hd
    · cases hd
    · exact ⟨code, List.mem_singleton.mp hd⟩
  generalize hn : v.newConn t dg io = res
  unfold Srv.newConn at hn
  simp only [h] at hn
  repeat' split at hn
  all_goals
    subst hn
    intro d hd
    dsimp only at hd
    first
      | exact hr _ _ d hd
      | exact ⟨_, List.mem_singleton.mp hd⟩
      | exact absurd hd (by simp)

/-- What is not a request is ignored by the main socket. -/
theorem newConn_other {v : Srv S} {t : Nat} {dg : Bytes} {io : NewIo} (h : v.requestOf dg = none) :
    v.newConn t dg io = ⟨[], .error .notRequest⟩ := by
  unfold Srv.requestOf at h
  unfold Srv.newConn
  simp only
  split at h
  · cases h
  · cases h
  · rename_i h1 h2
    split
    · rename_i r hr; exact absurd hr (h1 r)
    · rename_i r hr; exact absurd hr (h2 r)
    · rfl

/-- At the main address: neither a request nor a refusal is taken for a packet of the connection. -/
theorem stray_fine {v : Parties S} {late} (h : Honest v late) {t : Nat} {dg : Bytes} {io : NewIo} (hd : v.IsReq dg)
    {c : Conn} {out : List Bytes} (hres : (v.srv.newConn t dg io).result = .ok (c, out))
    (hcross : c.opts.level = .protocol ∨ c.opts.level = .full → (∀ d, v.IsReq d → (v.srv.transfer c).codec.dec d = none) ∧
      ∀ d n, v.Refusal d → (v.srv.transfer c).codec.dec (d.take n) = none) (file : Bytes) (bs n mark : Nat) :
    (∀ d, v.IsReq d → DataFine (v.srv.transfer c).codec.dec file bs n mark d ∧ AckFine (v.srv.transfer c).codec.dec file bs n mark d) ∧
    ∀ d, v.Refusal d → ∀ size, DataFine (v.srv.transfer c).codec.dec file bs n mark (d.take (recvBuffer size)) ∧
      AckFine (v.srv.transfer c).codec.dec file bs n mark (d.take (recvBuffer size)) := by
  by_cases hl : c.opts.level = .protocol ∨ c.opts.level = .full
  · exact ⟨fun d hd => fine_of_unreadable ((hcross hl).1 d hd) _ _ _ _, fun d hd size => fine_of_unreadable ((hcross hl).2 d _ hd) _ _ _ _⟩
  · have hopen : ∀ dg, v.IsReq dg → v.Open ∧ (v.srv.openRequest dg).1 = none := by
      intro dg' hd'
      obtain ⟨_, -, -, hway⟩ := request_read h hd'
      rcases hway with hway | ⟨hc, -⟩
      · exact hway
      · exact absurd (.inr (closed_full h hc hd hres)) hl
    have hdec : ∀ p : Packet, (∀ b x, p ≠ .data b x) → (v.srv.transfer c).codec.dec p.toBytes = some p.toBytes := by
      intro p hp
      have hnd := not_data_type p hp
      cases hce : c.enc with
      | none => rw [transfer_dec_none _ _ hce]
      | some A =>
        rw [transfer_dec_some _ _ _ hce]
        cases hl : c.opts.level <;> simp_all [unprotect]
    refine ⟨fun d hd' => ?_, fun d hd' size => ?_⟩
    · obtain ⟨ho, -⟩ := hopen d hd'
      obtain ⟨e, i, he, hput⟩ := hd'
      have hd : d = (v.job.request e).toBytes := by
        unfold Cli.put at hput
        rw [ho.send _ _ (request_not_data _ _)] at hput
        simpa using hput.symm
      subst hd
      refine fine_of_packet (hdec _ (request_not_data _ _)) (request_decodes h he) (request_not_data _ _) ?_ _ _ _ _
      intro b
      unfold Job.request
      split <;> simp
    · obtain ⟨t', dg', io', hq, hm⟩ := hd'
      obtain ⟨code, rfl⟩ := replies_plain (hopen dg' hq).2 d hm
      rw [List.take_of_length_le (by unfold recvBuffer; simp [Packet.toBytes, be16]; omega)]
      exact fine_of_error (hdec _ (by simp)) _ _ _ _

end Tftp

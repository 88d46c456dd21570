import Verif.ClientForeign
/-
C32: servers which disregard the options.
-/
namespace Tftp

/-- Specification: a client which did not ask for encryption. -/
def Spec.NoEncryption (j : Job) : Prop := j.opts.level = .none

theorem plain_sock {S} (v : Cli S) (j : Job) (h : Spec.NoEncryption j) :
    v.initialSock j.opts = (⟨none, .none, [], j.opts.blockSize⟩, j.opts) := by
  unfold Cli.initialSock; rw [if_pos (show j.opts.level = .none from h)]

theorem plain_put {S} (v : Cli S) (j : Job) (h : Spec.NoEncryption j) (i : Nat) (p : Packet) :
    v.put (v.initialSock j.opts).1 i true p = some p.toBytes := by
  rw [plain_sock v j h]; rfl

/-- The step for a datagram of the server in an unencrypted handshake. -/
theorem plain_query {S} (v : Cli S) (j : Job) (h : Spec.NoEncryption j) (q : Query) (i : CliIn) (d : Bytes)
    (hr : i.recv = .dgram v.cfg.endpoint d) (hok : i.sendOk = true) (hfit : d.length ≤ q.room) :
    v.step j (.query q) i = match v.reply j.write (v.requestOpts j) q.used q.initial d with
      | .fail e ps => (.done (.error e) [], (v.cfg.endpoint, (j.request q.exts).toBytes) :: ps.map fun p => (v.cfg.endpoint, p.toBytes))
      | .again => (.query ⟨Exts.empty, Exts.empty, false, (v.requestOpts j).retry, i.t, recvBuffer (v.requestOpts j).blockSize⟩,
          [(v.cfg.endpoint, (j.request q.exts).toBytes)])
      | .accept ack o' rk first =>
        ((v.accepted j v.cfg.endpoint ack o' rk first i).1,
          (v.cfg.endpoint, (j.request q.exts).toBytes) :: (v.accepted j v.cfg.endpoint ack o' rk first i).2.map (v.cfg.endpoint, ·)) := by
  have hrecv : ∀ b, (v.initialSock j.opts).1.recv b = some b := by intro b; rw [plain_sock v j h]; rfl
  simp only [Cli.step, Cli.queryStep, hok, plain_put v j h, hr, hrecv, List.take_of_length_le hfit, ne_eq, not_true_eq_false, false_and, if_false]
  cases v.reply j.write (v.requestOpts j) q.used q.initial d with
  | fail e ps =>
    have : ps.filterMap (v.put (v.initialSock j.opts).1 i.nonce2 true) = ps.map Packet.toBytes := by
      induction ps with
      | nil => rfl
      | cons p ps ih => rw [List.filterMap_cons_some (plain_put v j h i.nonce2 p), ih]; rfl
    simp [this]
  | again => rfl
  | accept => rfl

/-- The level stays `none`. -/
theorem plain_requestOpts {S} (v : Cli S) (j : Job) (h : Spec.NoEncryption j) :
    (v.requestOpts j).level = .none ∧ (v.requestOpts j).window = j.opts.window ∧ (v.requestOpts j).blockSize = j.opts.blockSize := by
  unfold Cli.requestOpts
  rw [plain_sock v j h]
  simp only
  have := show j.opts.level = .none from h
  cases j.task with
  | download _ => exact ⟨this, rfl, rfl⟩
  | upload n f => cases n with
    | none => exact ⟨this, rfl, rfl⟩
    | some n => simp only; split <;> exact ⟨this, rfl, rfl⟩

/-- **C32** (partial): an upload to a server which disregards the options (it answers with an acknowledgement) goes on with 512
byte blocks, unencrypted, to the same server. The window is the requested one; with a requested window of 1 these are the
parameters of plain TFTP, and C11 to C14 apply to the rest. Missing: the window is not reset to 1 (the theorem says that it is the requested one), and
downloads (`c32_download_truncated`). -/
theorem c32_upload_partial {S} (v : Cli S) (j : Job) (h : Spec.NoEncryption j) (size : Option Nat) (file : Bytes)
    (ht : j.task = .upload size file) (q : Query) (i : CliIn) (blk : UInt16) (hroom : 516 ≤ q.room)
    (hr : i.recv = .dgram v.cfg.endpoint (Packet.ack blk).toBytes) (hok : i.sendOk = true) :
    ∃ c : Cfg, c.bs = 512 ∧ c.W = j.opts.window ∧ (∀ n b, c.codec.enc n b = some b) ∧ (∀ b, c.codec.dec b = some b) ∧
    v.step j (.query q) i = (.up c 516 v.cfg.endpoint
      ⟨Reader.new (v.kind j.opts.window) file 512 j.opts.window, 0, false, false⟩ i.t none,
      [(v.cfg.endpoint, (j.request q.exts).toBytes)]) := by
  have hw : j.write = true := by unfold Job.write; rw [ht]
  have hparse : Packet.fromBytes (Packet.ack blk).toBytes = .ok (.ack blk) := c01_round_trip (.ack blk) trivial
  have hlen : (Packet.ack blk).toBytes.length ≤ q.room := by
    have : (Packet.ack blk).toBytes.length = 4 := rfl
    omega
  obtain ⟨o1, o2, o3⟩ := plain_requestOpts v j h
  have hconf : v.configure (v.initialSock j.opts).1 (j.opts.level ≠ .none) (cliPlain (v.requestOpts j)) none =
      ⟨none, .none, [], 512⟩ := by
    rw [plain_sock v j h]
    simp [Cli.configure, cliPlain, Opts.payload, o1]
  refine ⟨v.cfgOf ⟨none, .none, [], 512⟩ (cliPlain (v.requestOpts j)), ?_, ?_, fun _ _ => rfl, fun _ => rfl, ?_⟩
  · show (cliPlain (v.requestOpts j)).payload = 512
    simp [cliPlain, Opts.payload, o1]
  · exact o2
  · rw [plain_query v j h q i _ hr hok hlen]
    simp only [Cli.reply, hparse, hw, if_true, Cli.accepted, hconf, ht, Bool.false_eq_true, if_false]
    simp [cliPlain, Opts.payload, o1, o2, recvBuffer]

/-- The step for a first data packet. -/
theorem plain_first_data {S} (v : Cli S) (j : Job) (h : Spec.NoEncryption j) (ht : j.task = .download true)
    (q : Query) (i : CliIn) (data : Bytes) (hd : data.length ≤ 512) (hroom : 516 ≤ q.room)
    (hr : i.recv = .dgram v.cfg.endpoint (Packet.data 1 data).toBytes) (hok : i.sendOk = true) (hfile : i.file = .all)
    (hmax : 516 ≤ v.cfg.maxFileSize) (hann : j.opts.fileSize.getD 0 ≤ v.cfg.maxFileSize) :
    (data.length ≠ 508 → (v.step j (.query q) i).1 = .done (.ok (data.length + 4, none)) data) ∧
    (data.length = 508 → ∃ c ack, (v.step j (.query q) i).1 =
      .down c 516 v.cfg.endpoint ⟨⟨data, (Mapper.new.index 1).1, 1⟩, ack, 508, false, false⟩ i.t none ∧ c.bs = 512) := by
  have hw : j.write = false := by unfold Job.write; rw [ht]
  have hparse : Packet.fromBytes (Packet.data 1 data).toBytes = .ok (.data 1 data) := c01_round_trip (.data 1 data) trivial
  have hlen : (Packet.data 1 data).toBytes.length = data.length + 4 := by
    simp [Packet.toBytes, be16]
  obtain ⟨o1, o2, o3⟩ := plain_requestOpts v j h
  have hconf : v.configure (v.initialSock j.opts).1 (j.opts.level ≠ .none) (cliPlain (v.requestOpts j)) none =
      ⟨none, .none, [], 512⟩ := by
    rw [plain_sock v j h]
    simp [Cli.configure, cliPlain, Opts.payload, o1]
  have hbs : (v.cfgOf ⟨none, .none, [], 512⟩ (cliPlain (v.requestOpts j))).bs = 512 := by
    show (cliPlain (v.requestOpts j)).payload = 512
    simp [cliPlain, Opts.payload, o1]
  have hm : (v.cfgOf ⟨none, .none, [], 512⟩ (cliPlain (v.requestOpts j))).max = v.cfg.maxFileSize := rfl
  have hfs : (cliPlain (v.requestOpts j)).fileSize.getD 0 ≤ v.cfg.maxFileSize := by
    show (v.requestOpts j).fileSize.getD 0 ≤ _
    unfold Cli.requestOpts
    rw [plain_sock v j h, ht]
    exact hann
  have hwrite : wrapWrite Writer.new (1 : UInt16).toNat data .all =
      (⟨data, (Mapper.new.index 1).1, 1⟩, some (some data.length, 1, 1)) := by
    simp [wrapWrite, Writer.writeBlock, Writer.new, WriteIo.taken]
    rfl
  have hemit : ∀ n t p, (v.cfgOf ⟨none, .none, [], 512⟩ (cliPlain (v.requestOpts j))).emit n t p = some ⟨t, p.toBytes⟩ := fun _ _ _ => rfl
  generalize hc : v.cfgOf ⟨none, .none, [], 512⟩ (cliPlain (v.requestOpts j)) = c at *
  have hfirst : ∃ ack out, firstData c ⟨Writer.new, 0, 0, false, false⟩ (Packet.data 1 data).toBytes .all true i.nonce2 =
      (⟨⟨data, (Mapper.new.index 1).1, 1⟩, ack, data.length, false, false⟩, out,
        if data.length + 4 ≠ 512 then some (.ok (data.length + 4, none)) else none) := by
    simp only [firstData, hparse, hlen, hm, hwrite, hbs, hemit]
    rw [if_neg (by omega)]
    simp only [Option.getD_some, Nat.zero_add]
    split
    · split
      · exact ⟨_, _, rfl⟩
      · exact ⟨_, _, rfl⟩
    · split
      · exact ⟨_, _, rfl⟩
      · exact ⟨_, _, rfl⟩
  obtain ⟨ack, out, hfirst⟩ := hfirst
  rw [plain_query v j h q i _ hr hok (by omega)]
  simp only [Cli.reply, hparse, hw, if_true, Cli.accepted, hconf, hc, ht, Bool.false_eq_true, if_false, hok, hfile, hfirst,
    not_true_eq_false]
  constructor
  · intro hne
    rw [if_pos (by omega)]
  · intro he
    rw [if_neg (by omega)]
    simp only
    rw [if_neg (by omega)]
    refine ⟨c, ack, ?_, hbs⟩
    simp only [he]
    rfl

/-- **C32**, finding: a download of a file of at least 512 bytes from a server which disregards the options is reported as
successful after the first block: the local file is the first 512 bytes. (src/client/receiver.rs:150 compares the length of
the packet, with its header, with the block size.) -/
theorem c32_download_truncated {S} (v : Cli S) (j : Job) (h : Spec.NoEncryption j) (ht : j.task = .download true)
    (t0 : Nat) (file : Bytes) (hlong : 512 ≤ file.length) (i : CliIn)
    (hr : i.recv = .dgram v.cfg.endpoint (Packet.data 1 (file.take 512)).toBytes) (hok : i.sendOk = true) (hfile : i.file = .all)
    (hmax : 516 ≤ v.cfg.maxFileSize) (hann : j.opts.fileSize.getD 0 ≤ v.cfg.maxFileSize) :
    (v.run j t0 [i]).1 = .done (.ok (516, none)) (file.take 512) := by
  have hl : (file.take 512).length = 512 := by simp; omega
  have := (plain_first_data v j h ht (v.start j t0) i (file.take 512) (by omega)
    (by show 516 ≤ recvBuffer _; unfold recvBuffer; omega) hr hok hfile hmax hann).1 (by omega)
  simp only [Cli.run, Cli.runFrom]
  rw [this, hl]

/-- **C32**, finding: a file of exactly 508 bytes arrives complete in the first packet, but the client goes on waiting. -/
theorem c32_download_508_hangs {S} (v : Cli S) (j : Job) (h : Spec.NoEncryption j) (ht : j.task = .download true)
    (t0 : Nat) (file : Bytes) (hlong : file.length = 508) (i : CliIn)
    (hr : i.recv = .dgram v.cfg.endpoint (Packet.data 1 file).toBytes) (hok : i.sendOk = true) (hfile : i.file = .all)
    (hmax : 516 ≤ v.cfg.maxFileSize) (hann : j.opts.fileSize.getD 0 ≤ v.cfg.maxFileSize) :
    ∃ c room ep s since auth, (v.run j t0 [i]).1 = .down c room ep s since auth := by
  obtain ⟨c, ack, h1, -⟩ := (plain_first_data v j h ht (v.start j t0) i file (by omega)
    (by show 516 ≤ recvBuffer _; unfold recvBuffer; omega) hr hok hfile hmax hann).2 hlong
  exact ⟨_, _, _, _, _, _, h1⟩

/-- **C32** (partial): a file shorter than 512 bytes, except 508, is delivered completely (the reported size is 4 too large). -/
theorem c32_download_short_partial {S} (v : Cli S) (j : Job) (h : Spec.NoEncryption j) (ht : j.task = .download true)
    (t0 : Nat) (file : Bytes) (hshort : file.length < 512 ∧ file.length ≠ 508) (i : CliIn)
    (hr : i.recv = .dgram v.cfg.endpoint (Packet.data 1 file).toBytes) (hok : i.sendOk = true) (hfile : i.file = .all)
    (hmax : 516 ≤ v.cfg.maxFileSize) (hann : j.opts.fileSize.getD 0 ≤ v.cfg.maxFileSize) :
    (v.run j t0 [i]).1 = .done (.ok (file.length + 4, none)) file :=
  (plain_first_data v j h ht (v.start j t0) i file (by omega)
    (by show 516 ≤ recvBuffer _; unfold recvBuffer; omega) hr hok hfile hmax hann).1 hshort.2

/-- **C32**: an answer which does not fit the request (data for an upload, an acknowledgement for a download, a request) ends the
transfer with an error; nothing is written or sent in response. -/
theorem c32_unexpected_answer {S} (v : Cli S) (j : Job) (h : Spec.NoEncryption j) (q : Query) (i : CliIn) (p : Packet) (hp : Spec.Sendable p)
    (hkind : (j.write = true ∧ ∃ b x, p = .data b x) ∨ (j.write = false ∧ ∃ b, p = .ack b) ∨ (∃ r, p = .read r) ∨ (∃ r, p = .write r))
    (hr : i.recv = .dgram v.cfg.endpoint p.toBytes) (hok : i.sendOk = true) (hfit : p.toBytes.length ≤ q.room) :
    v.step j (.query q) i = (.done (.error .invalid) [], [(v.cfg.endpoint, (j.request q.exts).toBytes)]) := by
  have hparse : Packet.fromBytes p.toBytes = .ok p := c01_round_trip p hp
  have : v.reply j.write (v.requestOpts j) q.used q.initial p.toBytes = .fail .invalid [] := by
    unfold Cli.reply
    rw [hparse]
    rcases hkind with ⟨hw, b, x, rfl⟩ | ⟨hw, b, rfl⟩ | ⟨r, rfl⟩ | ⟨r, rfl⟩ <;> simp [*]
  rw [plain_query v j h q i _ hr hok hfit, this]
  rfl

/-- **C32**: a server which refuses the options with an error is asked again, once, without options. -/
theorem c32_retry_without_options {S} (v : Cli S) (j : Job) (h : Spec.NoEncryption j) (t0 : Nat) (i : CliIn) (code : ErrorCode) (msg : Bytes)
    (hmsg : Spec.Text msg) (hcode : code = .illegalOperation ∨ code = .undefined)
    (hr : i.recv = .dgram v.cfg.endpoint (Packet.error code msg).toBytes) (hok : i.sendOk = true)
    (hfit : (Packet.error code msg).toBytes.length ≤ 516) :
    (∃ q, (v.run j t0 [i]).1 = .query q ∧ q.exts = Exts.empty ∧ q.start = i.t ∧
      -- the second refusal ends the attempt
      ∀ i' : CliIn, i'.recv = i.recv → i'.sendOk = true → (v.run j t0 [i, i']).1 = .done (.error .remoteError) [] ∧
        (v.run j t0 [i, i']).2 = [(v.cfg.endpoint, (j.request (v.start j t0).exts).toBytes), (v.cfg.endpoint, (j.request Exts.empty).toBytes)]) := by
  have hparse : Packet.fromBytes (Packet.error code msg).toBytes = .ok (.error code msg) := c01_round_trip (.error code msg) hmsg
  obtain ⟨o1, o2, o3⟩ := plain_requestOpts v j h
  have hroom : ∀ n, 516 ≤ recvBuffer n := fun n => by unfold recvBuffer; omega
  have h1 := plain_query v j h (v.start j t0) i _ hr hok (Nat.le_trans hfit (hroom _))
  have hini : (v.start j t0).initial = true := rfl
  simp only [Cli.reply, hparse, hini, o1] at h1
  rw [if_pos ⟨hcode, trivial, trivial⟩] at h1
  refine ⟨_, congrArg Prod.fst h1, rfl, rfl, ?_⟩
  intro i' hi' hok'
  have h2 := plain_query v j h ⟨Exts.empty, Exts.empty, false, (v.requestOpts j).retry, i.t, recvBuffer (v.requestOpts j).blockSize⟩ i' _
    (hi'.trans hr) hok' (Nat.le_trans hfit (hroom _))
  simp only [Cli.reply, hparse] at h2
  rw [if_neg (by simp)] at h2
  simp only [Cli.run, Cli.runFrom, h1, h2]
  exact ⟨trivial, rfl⟩


/-! ### Without encryption, all transfers are plain -/

theorem accepted_plain {S} (v : Cli S) (j : Job) (h : Spec.NoEncryption j) (ep ack o rk first i) :
    Spec.PlainTransfer (v.accepted j ep ack o rk first i).1 := by
  have hc : v.configure (v.initialSock j.opts).1 (decide (j.opts.level ≠ Level.none)) o rk = ⟨none, .none, [], o.payload⟩ := by
    rw [plain_sock v j h]
    unfold Cli.configure
    have : decide (j.opts.level ≠ Level.none) = false := by simp [show j.opts.level = .none from h]
    rw [this]
  unfold Cli.accepted
  simp only [hc]
  repeat' split
  all_goals first | exact trivial | exact fun d => rfl

theorem plain_query_step {S} (v : Cli S) (j : Job) (h : Spec.NoEncryption j) (q : Query) (i : CliIn) :
    (∃ q', (v.step j (.query q) i).1 = .query q') ∨ Spec.PlainTransfer (v.step j (.query q) i).1 := by
  simp only [Cli.step, Cli.queryStep]
  repeat' split
  all_goals first | exact .inr trivial | exact .inl ⟨_, rfl⟩ | exact .inr (accepted_plain v j h _ _ _ _ _ _)

/-- A client which did not ask for encryption never has any. -/
theorem plain_run {S} (v : Cli S) (j : Job) (h : Spec.NoEncryption j) (t : Nat) (is : List CliIn) :
    (∃ q, (v.run j t is).1 = .query q) ∨ Spec.PlainTransfer (v.run j t is).1 := by
  unfold Cli.run
  have : ∀ s : CliSt, ((∃ q, s = .query q) ∨ Spec.PlainTransfer s) →
      ((∃ q, (v.runFrom j s is).1 = .query q) ∨ Spec.PlainTransfer (v.runFrom j s is).1) := by
    induction is with
    | nil => intro s hs; exact hs
    | cons i is ih =>
      intro s hs
      refine ih _ ?_
      rcases hs with ⟨q, rfl⟩ | hs
      · exact plain_query_step v j h q i
      · cases hsv : Spec.server s with
        | some ep =>
          rcases step_transfer v j s i ep hsv hs with ⟨h1, -⟩
          exact .inr h1
        | none =>
          cases s with
          | query q => cases hs
          | done r f => exact .inr trivial
          | up _ _ _ _ _ _ => cases hsv
          | down _ _ _ _ _ _ => cases hsv
  exact this _ (.inl ⟨_, rfl⟩)

/-- **C30** (partial): for a client which did not ask for encryption, whatever happened before: from the moment it talks to the
server at `ep`, datagrams from elsewhere change nothing. Missing: as in `c30_foreign_ignored_partial`. -/
theorem c30_plain_client_partial {S} (v : Cli S) (j : Job) (h : Spec.NoEncryption j) (t : Nat) (before : List CliIn) (ep : Ep)
    (hs : Spec.server (v.run j t before).1 = some ep) (is : List CliIn) :
    v.run j t (before ++ is) = v.run j t (before ++ is.map (Spec.hush ep)) := by
  rcases plain_run v j h t before with ⟨q, hq⟩ | hp
  · rw [hq] at hs; cases hs
  · unfold Cli.run at hs hp ⊢
    rw [runFrom_append, runFrom_append, c30_foreign_ignored_partial v j _ ep hs hp is]

end Tftp

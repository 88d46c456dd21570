import Verif.RfcServer
import Verif.RfcDown
import Verif.ClientPlain
import Verif.EndUp
/-
C83: this client uploads to a server which follows the RFCs (RfcServer.lean).
-/
namespace Tftp.Rfc
open Tftp Spec

variable {S : SigScheme}

/-! ### The client's packets and states without encryption -/

/-- What a sending turn of the client does. -/
theorem ctick_cases {c : Cfg} {file : Bytes} {m : Mapper} {w : Window} {s : SendSt} (hbs : 0 < c.bs) (hcap : c.bs ≤ c.cap)
    (henc : ∀ n b, c.codec.enc n b = some b) (h : SInv c file m w s) (retry fail wb : Bool) (net : SendRes) (nonce : Nat)
    (q : SendSt × Option Dgram) (hq : q = clientSendTick c s retry fail wb net nonce) :
    q.1.finished = s.finished ∧
    ((fail = true ∧ SInv c file m w q.1 ∧ q.2 = none) ∨
    (SInv c file m (w.next file c.bs c.W retry).1 q.1 ∧ (net = .sent → q.1.failed = s.failed) ∧
      q.2.map (·.bytes) = (match (w.next file c.bs c.W retry).2 with
        | none => none
        | some (i, _) => if net = .sent then some (dataPacket i (Spec.block file c.bs i)) else none))) := by
  have hinv := h.sim.inv
  have hbase := (next_moves hinv retry).1
  subst hq
  refine ⟨tick_finished _ _ _ _ _ _ _, ?_⟩
  rcases ReaderSim.next hbs h.sim retry fail c.cap hcap with ⟨h1, h2, h3⟩ | ⟨h2, h3⟩
  · left
    unfold clientSendTick
    simp only
    rw [h2]
    simp only
    cases wb with
    | true => exact ⟨h1, h.reader h3 rfl, rfl⟩
    | false => exact ⟨h1, (h.reader h3 rfl).fail, rfl⟩
  · right
    unfold clientSendTick
    simp only
    rw [h2]
    cases hn : (w.next file c.bs c.W retry).2 with
    | none => exact ⟨h.reader h3 hbase, fun _ => rfl, rfl⟩
    | some x =>
      have hem : ∀ k p, c.emit nonce k p = some ⟨k, p.toBytes⟩ := by intro k p; unfold Cfg.emit; rw [henc]; rfl
      simp only [hem]
      cases net with
      | sent => exact ⟨h.reader h3 hbase, fun _ => rfl, congrArg some (data_bytes x.1 _)⟩
      | wouldBlock => exact ⟨h.reader h3 hbase, (fun h => nomatch h), rfl⟩
      | error => exact ⟨(h.reader h3 hbase).fail, (fun h => nomatch h), rfl⟩

/-- A datagram which no receiver takes for data. -/
def NotData (b : Bytes) : Prop := b.take 2 ≠ [0, 3]

theorem NotData.mail {b : Bytes} (h : NotData b) (file : Bytes) (bs W top stamp : Nat) : DataMail file bs W top ⟨b, stamp⟩ := fun hd => absurd hd h

theorem cli_numbers {out : List Bytes} {o o' : Opts} (h : cliNumbers (granted out) o = .ok o') :
    o'.level = o.level ∧ o'.blockSize = blockSize out ∧ o'.window = windowSize out := by
  unfold blockSize windowSize Spec.requested
  generalize granted out = e at h ⊢
  unfold cliNumbers at h
  split at h
  · cases h
  rename_i o1 h1
  split at h
  · cases h
  rename_i o2 h2
  split at h
  · cases h
  rename_i o3 h3
  have g1 : o1.level = o.level ∧ o1.blockSize = ((e .blockSize).bind (parseUInt 65535)).getD 512 := by
    unfold cliBlock at h1
    cases hx : e .blockSize with
    | none => rw [hx] at h1; cases h1; exact ⟨rfl, rfl⟩
    | some t =>
      rw [hx] at h1
      simp only at h1
      split at h1
      · cases h1
        cases hp : parseUInt 65535 t with
        | none => rename_i hr; rw [hp] at hr; simp at hr
        | some n => exact ⟨rfl, by simp [hp]⟩
      · cases h1
  have g2 : o2.level = o1.level ∧ o2.blockSize = o1.blockSize ∧ o2.window = ((e .windowSize).bind (parseUInt 65535)).getD 1 := by
    unfold cliWindow at h2
    cases hx : e .windowSize with
    | none => rw [hx] at h2; cases h2; exact ⟨rfl, rfl, rfl⟩
    | some t =>
      rw [hx] at h2
      simp only at h2
      split at h2
      · cases h2
        cases hp : parseUInt 65535 t with
        | none => rename_i hr; rw [hp] at hr; simp at hr
        | some n => exact ⟨rfl, rfl, by simp [hp]⟩
      · cases h2
  have g3 : o3.level = o2.level ∧ o3.blockSize = o2.blockSize ∧ o3.window = o2.window := by
    unfold cliTimeout at h3
    split at h3
    · simp only at h3
      split at h3
      · cases h3; exact ⟨rfl, rfl, rfl⟩
      · cases h3
    · cases h3; exact ⟨rfl, rfl, rfl⟩
  have g4 : o'.level = o3.level ∧ o'.blockSize = o3.blockSize ∧ o'.window = o3.window := by
    unfold cliSize at h
    split at h
    · simp only at h
      split at h
      · cases h; exact ⟨rfl, rfl, rfl⟩
      · split at h
        · cases h
        · cases h; exact ⟨rfl, rfl, rfl⟩
    · cases h; exact ⟨rfl, rfl, rfl⟩
  refine ⟨?_, ?_, ?_⟩
  · rw [g4.1, g3.1, g2.1, g1.1]
  · rw [g4.2.1, g3.2.1, g2.2.1, g1.2]
  · rw [g4.2.2, g3.2.2, g2.2.2]

/-- What the answer of the server says about the transfer, for a client which did not ask for encryption. -/
theorem cli_reply {v : Cli S} {o : Opts} (hl : o.level = .none) (hw : 1 ≤ o.window) {used : Exts} {initial : Bool} {answer : Bytes}
    (ha : WriteAnswer answer) {ack : Bool} {o' : Opts} {rk : Option RemoteKeys} {first : Option Bytes} {write : Bool}
    (h : v.reply write o used initial answer = .accept ack o' rk first) :
    o'.level = .none ∧ o'.blockSize = blockSize [answer] ∧ 512 ≤ o'.blockSize ∧ 1 ≤ o'.window ∧ o'.window ≤ o.window ∧
    (ack = true → o'.window = windowSize [answer]) ∧ rk = none ∧ (ack = true ↔ answer ≠ ackPacket 0) ∧ (ack = true → first = none) := by
  have hack : Packet.fromBytes (ackPacket 0) = .ok (.ack 0) := by rw [← ack_bytes]; exact decode_ack _
  rcases ha with rfl | ⟨e, he⟩
  · unfold Cli.reply at h
    rw [hack] at h
    simp only at h
    split at h
    · simp only [Reply.accept.injEq] at h
      obtain ⟨rfl, rfl, rfl, rfl⟩ := h
      have hg : granted [ackPacket 0] = Exts.empty := by simp only [granted, hack]
      refine ⟨hl, ?_, Nat.le_refl _, hw, Nat.le_refl _, (fun h => nomatch h), rfl, by simp, (fun h => nomatch h)⟩
      unfold blockSize
      rw [hg]
      rfl
    · cases h
  · have hne : answer ≠ ackPacket 0 := by
      rintro rfl
      rw [hack] at he
      cases he
    unfold Cli.reply at h
    rw [he] at h
    simp only at h
    split at h
    · rename_i o1 rk1 sent hc
      simp only [Reply.accept.injEq] at h
      obtain ⟨rfl, rfl, rfl, rfl⟩ := h
      have hlim := c17_client_limits _ _ _ _ _ _ _ _ _ hc
      have hg : granted [answer] = e := by simp only [granted, he]
      have hwin : o1.window = 1 ∨ 1 ≤ o1.window ∧ o1.window ≤ o.window := hlim.2.2.1
      unfold cliOack at hc
      split at hc
      · split at hc
        · cases hc
        · rename_i o2 rk2 hp
          split at hc
          · cases hc
          · simp only [Prod.mk.injEq, Except.ok.injEq] at hc
            obtain ⟨⟨rfl, rfl⟩, -⟩ := hc
            unfold cliParse at hp
            split at hp
            · cases hp
            · rename_i o3 hn
              have h3 : o3.level = o.level ∧ (o3.blockSize = blockSize [answer]) ∧ o3.window = windowSize [answer] := by
                rw [← hg] at hn
                exact cli_numbers hn
              rw [if_pos (by rw [h3.1]; exact hl)] at hp
              cases hp
              refine ⟨by rw [h3.1]; exact hl, h3.2.1, by omega, by omega, by omega, fun _ => h3.2.2, rfl, by simp [hne], fun _ => rfl⟩
      · cases hc
    · cases h

/-! ### The invariant -/

/-- The parameters of the client's transfer. -/
structure PlainCfg (c : Cfg) (bs W : Nat) : Prop where
  bs : c.bs = bs
  win : 1 ≤ c.W ∧ c.W ≤ W
  cap : c.bs ≤ c.cap
  sender : c.sender = .client
  receiver : c.receiver = .client
  enc : ∀ n b, c.codec.enc n b = some b
  dec : ∀ b, c.codec.dec b = some b

/-- The sending client: it has sent `top` blocks, and has heard of some of the `blocks` blocks which the server has. -/
structure UpAt (file : Bytes) (bs W blocks top : Nat) (c : Cfg) (room : Nat) (s : SendSt) (m : Mapper) (w : Window) : Prop where
  big : 512 ≤ bs
  room : 516 ≤ room
  cfg : PlainCfg c bs W
  failed : s.failed = false
  finished : s.finished = false
  inv : SInv c file m w s
  base : w.base ≤ blocks
  top : w.top = top

/-- The client. -/
def UpState (v : Cli S) (j : Job) (ep : Ep) (file : Bytes) (bs blocks top : Nat) : CliSt → Prop
  | .query q => top = 0 ∧ (ep.ip = v.cfg.endpoint.ip → 516 ≤ q.room)
  | .up c room ep' s _ _ => ep' = ep ∧ ∃ m w, UpAt file bs j.opts.window blocks top c room s m w
  | .down _ _ _ _ _ _ => False
  | .done (.ok (n, _)) _ => blocks = nblocks file bs ∧ n = file.length
  | .done (.error _) _ => True

/-- A datagram of the server. -/
def PeerMail (answer : Bytes) (m : Mail) : Prop :=
  (m.bytes = ackPacket m.stamp ∧ 0 < m.stamp) ∨ (m.bytes = answer ∧ m.stamp = 0) ∨ ∃ text, m.bytes = [0, 5] ++ text

theorem accepted_cfg (v : Cli S) (j : Job) (h : Spec.NoEncryption j) (o : Opts) (rk : Option RemoteKeys) :
    v.configure (v.initialSock j.opts).1 (decide (j.opts.level ≠ Level.none)) o rk = ⟨none, .none, [], o.payload⟩ := by
  rw [plain_sock v j h]
  unfold Cli.configure
  have : decide (j.opts.level ≠ Level.none) = false := by simp [show j.opts.level = .none from h]
  rw [this]

theorem plain_cfg (v : Cli S) (o : Opts) (hl : o.level = .none) (W : Nat) (hw : 1 ≤ o.window ∧ o.window ≤ W) (b : Nat) :
    PlainCfg (v.cfgOf ⟨none, .none, [], b⟩ o) o.blockSize W := by
  have hp : o.payload = o.blockSize := by unfold Opts.payload; rw [hl]
  refine ⟨hp, hw, ?_, rfl, rfl, fun _ _ => rfl, fun _ => rfl⟩
  show o.payload ≤ max o.blockSize 512
  omega

theorem request_notData (j : Job) (e : Exts) : NotData (j.request e).toBytes := by
  unfold Job.request NotData
  split
  · show ¬ ([0, 2] : Bytes) = [0, 3]; decide
  · show ¬ ([0, 1] : Bytes) = [0, 3]; decide

theorem error_notData (c : ErrorCode) (m : Bytes) : NotData (Packet.error c m).toBytes := by
  show ¬ ([0, 5] : Bytes) = [0, 3]; decide

/-- What the client sends when it refuses. -/
theorem reply_fail {v : Cli S} {write : Bool} {o : Opts} {used : Exts} {initial : Bool} {b : Bytes} {e : CliErr} {ps : List Packet}
    (h : v.reply write o used initial b = .fail e ps) : ∀ p ∈ ps, ∃ c m, p = .error c m := by
  unfold Cli.reply at h
  split at h
  · split at h
    · cases h
    · rename_i hc
      simp only [Reply.fail.injEq] at h
      obtain ⟨rfl, rfl⟩ := h
      unfold cliOack at hc
      repeat' split at hc
      all_goals simp only [Prod.mk.injEq, reduceCtorEq, false_and] at hc
      all_goals (obtain ⟨-, rfl⟩ := hc; intro p hp; simp only [List.not_mem_nil, List.mem_singleton] at hp; try exact ⟨_, _, hp⟩)
  all_goals (repeat' split at h)
  all_goals first | cases h; done | (simp only [Reply.fail.injEq] at h; obtain ⟨-, rfl⟩ := h; intro p hp; cases hp)

/-- The answer arrives at the waiting client, or an error packet, or nothing. -/
theorem query_cases {v : Cli S} {j : Job} (hp : Spec.NoEncryption j) {size : Option Nat} {file : Bytes} (hj : j.task = .upload size file)
    (hw : 1 ≤ j.opts.window) {ep : Ep} {answer : Bytes} (ha : WriteAnswer answer) (hlen : answer.length ≤ 512) {q : Query}
    (hroom : ep.ip = v.cfg.endpoint.ip → 516 ≤ q.room) (i : CliIn)
    (hi : i.recv = .error ∨ i.recv = .wouldBlock ∨ i.recv = .dgram ep answer ∨ ∃ text, i.recv = .dgram ep ([0, 5] ++ text)) (blocks : Nat) :
    UpState v j ep file (blockSize [answer]) blocks 0 (v.step j (.query q) i).1 ∧ ∀ d ∈ (v.step j (.query q) i).2, NotData d.2 := by
  have hopts := plain_requestOpts v j hp
  simp only [Cli.step, Cli.queryStep]
  have hput : ∀ n ok p b, v.put (v.initialSock j.opts).1 n ok p = some b → b = p.toBytes := by
    intro n ok p b h
    cases ok with
    | true => rw [plain_put v j hp] at h; cases h; rfl
    | false =>
      rw [plain_sock v j hp] at h
      cases h
  have hrecv : ∀ b, (v.initialSock j.opts).1.recv b = some b := by intro b; rw [plain_sock v j hp]; rfl
  cases hreq : v.put (v.initialSock j.opts).1 i.nonce i.sendOk (j.request q.exts) with
  | none => exact ⟨trivial, by intro d hd; cases hd⟩
  | some req =>
    have hr1 : NotData req := by rw [hput _ _ _ _ hreq]; exact request_notData _ _
    have hone : ∀ d ∈ [(v.cfg.endpoint, req)], NotData d.2 := by
      intro d hd
      rw [List.mem_singleton] at hd
      subst hd
      exact hr1
    simp only
    rcases hi with hi | hi | hi
    · rw [hi]; exact ⟨trivial, hone⟩
    · rw [hi]
      simp only
      split
      · exact ⟨trivial, hone⟩
      · exact ⟨⟨rfl, hroom⟩, hone⟩
    · have key : ∃ b0, i.recv = .dgram ep b0 ∧ (b0 = answer ∨ ∃ text, b0 = [0, 5] ++ text) := by
        rcases hi with hi | ⟨text, hi⟩
        · exact ⟨_, hi, .inl rfl⟩
        · exact ⟨_, hi, .inr ⟨text, rfl⟩⟩
      obtain ⟨b0, hi, hb0⟩ := key
      rw [hi]
      simp only [hrecv]
      split
      · rename_i hip
        exact ⟨⟨rfl, fun h => absurd h hip⟩, hone⟩
      · rename_i hip
        have hip : ep.ip = v.cfg.endpoint.ip := Classical.not_not.mp hip
        have hr := hroom hip
        split
        · exact ⟨trivial, hone⟩
        · split
          · rename_i e ps hf
            refine ⟨trivial, ?_⟩
            intro d hd
            rw [List.mem_append] at hd
            rcases hd with hd | hd
            · exact hone d hd
            · simp only [List.mem_map, List.mem_filterMap] at hd
              obtain ⟨x, ⟨p, hpm, hx⟩, rfl⟩ := hd
              obtain ⟨c, m, rfl⟩ := reply_fail hf p hpm
              rw [hput _ _ _ _ hx]
              exact error_notData c m
          · refine ⟨⟨rfl, fun _ => ?_⟩, hone⟩
            show 516 ≤ max _ _
            omega
          · rename_i ack o' rk first hacc
            have hb : b0 = answer := by
              rcases hb0 with h | ⟨text, rfl⟩
              · exact h
              · exfalso
                have : ([0, 5] ++ text : Bytes).take q.room = [0, 5] ++ text.take (q.room - 2) := by
                  rw [List.take_append]
                  congr 1
                  exact List.take_of_length_le (by simp only [List.length_cons, List.length_nil]; omega)
                rw [this] at hacc
                unfold Cli.reply at hacc
                rcases quit_read (text.take (q.room - 2)) with ⟨c, m, hx⟩ | ⟨e, hx⟩
                · rw [hx] at hacc
                  simp only at hacc
                  split at hacc <;> cases hacc
                · rw [hx] at hacc
                  cases hacc
            subst hb
            rw [List.take_of_length_le (by omega)] at hacc
            obtain ⟨g1, g2, g3, g4, g5, g6, g7, g8, g9⟩ := cli_reply hopts.1 (by rw [hopts.2.1]; exact hw) ha hacc
            rw [hopts.2.1] at g5
            unfold Cli.accepted
            simp only [accepted_cfg v j hp, hj]
            have hcfg := plain_cfg v o' g1 j.opts.window ⟨g4, g5⟩ o'.payload
            rw [g2] at hcfg
            rw [g2] at g3
            have hem : ∀ n k p, (v.cfgOf ⟨none, .none, [], o'.payload⟩ o').emit n k p = some ⟨k, p.toBytes⟩ := by
              intro n k p; rfl
            have hpay : o'.payload = o'.blockSize := by unfold Opts.payload; rw [g1]
            have hst : UpState v j ep file (blockSize [b0]) blocks 0 (.up (v.cfgOf ⟨none, .none, [], o'.payload⟩ o') (recvBuffer o'.blockSize) ep
                ⟨Reader.new (v.kind o'.window) file o'.payload o'.window, 0, false, false⟩ i.t (rk.bind (·.auth))) := by
              refine ⟨rfl, Mapper.new, Window.init, g3, ?_, hcfg, rfl, rfl, SInv.init (c := v.cfgOf ⟨none, .none, [], o'.payload⟩ o') ?_, Nat.zero_le _, rfl⟩
              · show 516 ≤ max _ _
                omega
              · intro hk
                unfold Cli.kind at hk
                split at hk
                · cases hk
                · split at hk
                  · assumption
                  · cases hk
            simp only [hem]
            split
            · exact ⟨trivial, by intro d hd; rw [List.mem_append] at hd; rcases hd with hd | hd; exact hone d hd; cases hd⟩
            · rename_i out hout
              refine ⟨hst, ?_⟩
              intro d hd
              rw [List.mem_append] at hd
              rcases hd with hd | hd
              · exact hone d hd
              · simp only [List.mem_map] at hd
                obtain ⟨x, hx, rfl⟩ := hd
                split at hout
                · split at hout
                  · simp only [Option.map_some, Option.some.injEq] at hout
                    subst hout
                    rw [List.mem_singleton] at hx
                    subst hx
                    show ¬ ([0, 4] : Bytes) = [0, 3]
                    decide
                  · cases hout
                · cases hout
                  cases hx

/-- The sending part of an iteration. -/
theorem up_turn {file : Bytes} {bs W blocks top : Nat} {c : Cfg} {room : Nat} {s : SendSt} {m : Mapper} {w : Window}
    (h : UpAt file bs W blocks top c room s m w) (hle : blocks ≤ top) (i : CliIn) (q : SendSt × Option Dgram)
    (hq : q = clientSendTick c s i.retry i.fail i.wb i.net i.nonce) :
    ∃ w', (q.1.failed = true ∨ UpAt file bs W blocks w'.top c room q.1 m w') ∧ w'.base = w.base ∧ top ≤ w'.top ∧ w'.top ≤ nblocks file bs ∧
      (∀ d ∈ q.2.toList, DataMail file bs W w'.top ⟨d.bytes, blocks⟩) ∧
      (i.fail = false → i.net = .sent → q.1.failed = false ∧ (i.retry = true → w.base = blocks → blocks < nblocks file bs →
        q.2.map (·.bytes) = some (dataPacket (blocks + 1) (block file bs (blocks + 1))))) := by
  obtain ⟨h1, h2, h3, h4, h5, h6, h7, rfl⟩ := h
  have hw := h6.sim.inv
  have hbs0 : 0 < c.bs := by rw [h3.bs]; omega
  obtain ⟨g1, g2⟩ := ctick_cases hbs0 h3.cap h3.enc h6 i.retry i.fail i.wb i.net i.nonce q hq
  rcases g2 with ⟨g2, g3, g4⟩ | ⟨g2, g3, g4⟩
  · refine ⟨w, ?_, rfl, Nat.le_refl _, by rw [← h3.bs]; exact hw.top_le, ?_, ?_⟩
    · cases hf : q.1.failed with
      | true => exact .inl rfl
      | false => exact .inr ⟨h1, h2, h3, hf, by rw [g1]; exact h5, g3, h7, rfl⟩
    · rw [g4]; intro d hd; cases hd
    · intro hf; rw [g2] at hf; cases hf
  · have hnb := (next_moves hw i.retry).1
    have htop : w.top ≤ (w.next file c.bs c.W i.retry).1.top := by
      cases hn : (w.next file c.bs c.W i.retry).2 with
      | none =>
        unfold Window.next at hn ⊢
        repeat' split
        all_goals simp only
        all_goals omega
      | some x =>
        obtain ⟨k, y⟩ := x
        obtain ⟨f1, f2, f3, f4, f5⟩ := Window.next_some hw hn
        rw [f5]
        simp only
        omega
    refine ⟨(w.next file c.bs c.W i.retry).1, ?_, hnb, htop, by rw [← h3.bs]; exact g2.sim.inv.top_le, ?_, ?_⟩
    · cases hf : q.1.failed with
      | true => exact .inl rfl
      | false => exact .inr ⟨h1, h2, h3, hf, by rw [g1]; exact h5, g2, by rw [hnb]; exact h7, rfl⟩
    · intro d hd hd2
      rw [Option.mem_toList] at hd
      rw [hd, Option.map_some] at g4
      cases hn : (w.next file c.bs c.W i.retry).2 with
      | none => rw [hn] at g4; cases g4
      | some y =>
        obtain ⟨k, again⟩ := y
        obtain ⟨f1, f2, f3, f4, f5⟩ := Window.next_some hw hn
        rw [hn] at g4
        simp only at g4
        split at g4
        · have hroom := hw.room
          have hW := h3.win
          refine ⟨k, by rw [← h3.bs]; exact Option.some.inj g4, by omega, by rw [f5]; simp only; omega, by simp only; omega, by simp only; omega⟩
        · cases g4
    · intro hf hnet
      refine ⟨by rw [g3 hnet]; exact h4, ?_⟩
      intro hretry hbl hlt
      rw [g4]
      have hn : (w.next file c.bs c.W i.retry).2 = some (w.base + 1, decide (w.base < w.top)) := by
        obtain ⟨k1, k2, k3, k4⟩ := hw
        have k5 : w.base < nblocks file c.bs := by rw [hbl, h3.bs]; exact hlt
        have k6 := h3.win.1
        unfold Window.next
        rw [hretry]
        by_cases hbt : w.base < w.top
        · rw [if_pos ⟨rfl, hbt⟩]; simp [hbt]
        · have : w.base = w.top := by omega
          rw [if_neg (by omega), if_neg (by omega), if_pos (by omega)]
          simp [this]
      rw [hn]
      simp only [hnet, if_true, hbl, h3.bs]

/-- A datagram of the server arrives at the sending client. -/
theorem up_hear {file : Bytes} {bs W blocks top : Nat} {c : Cfg} {room : Nat} {s : SendSt} {m : Mapper} {w : Window}
    (h : UpAt file bs W blocks top c room s m w) (hle : blocks ≤ top) {age : Option Nat} (hage : Distinct age W (nblocks file bs))
    {answer : Bytes} (ha : WriteAnswer answer) (hlen : answer.length ≤ 512) {x : Mail} (hx : PeerMail answer x) (hst : x.stamp ≤ blocks)
    (hin : inTime age x.stamp blocks = true) :
    ((clientSendRecv c s (x.bytes.take room)).failed = true ∧ ∃ text, x.bytes = [0, 5] ++ text) ∨
    (∃ m' w', UpAt file bs W blocks top c room (clientSendRecv c s (x.bytes.take room)) m' w' ∧
      ((¬ ∃ text, x.bytes = [0, 5] ++ text) → w'.base = max w.base x.stamp ∧ x.stamp < nblocks file bs)) ∨
    ((clientSendRecv c s (x.bytes.take room)).failed = false ∧ (clientSendRecv c s (x.bytes.take room)).finished = true ∧
      blocks = nblocks file bs ∧ (clientSendRecv c s (x.bytes.take room)).total = file.length) := by
  obtain ⟨h1, h2, h3, h4, h5, h6, h7, rfl⟩ := h
  have hw := h6.sim.inv
  have hbs0 : 0 < c.bs := by rw [h3.bs]; omega
  have hroom := hw.room
  have htop : w.top ≤ nblocks file bs := by rw [← h3.bs]; exact hw.top_le
  have hW := h3.win
  have hnb : 1 ≤ nblocks file bs := nblocks_pos _ _
  have hb0 : w.base < nblocks file bs := by
    rcases Nat.lt_or_ge w.base (nblocks file bs) with h | h
    · exact h
    · have h8 : w.base = nblocks file c.bs := by rw [h3.bs]; have := hw.base_cur; have := hw.cur_top; omega
      rcases h6.done h8 with hf | hf
      · rw [h5] at hf; cases hf
      · rw [h4] at hf; cases hf
  have hsr : sendRecv c s (x.bytes.take room) = clientSendRecv c s (x.bytes.take room) := by unfold sendRecv; rw [h3.sender]
  by_cases hack : x.bytes = ackPacket x.stamp
  · have hfresh : (w.base ≤ x.stamp + 10000 ∨ nblocks file bs ≤ 55535) ∧ (x.stamp ≤ w.base + 10000 ∨ nblocks file bs ≤ 55535) := by
      unfold Distinct at hage
      unfold inTime at hin
      cases age with
      | none => exact ⟨.inr hage, .inr hage⟩
      | some l =>
        simp only [decide_eq_true_eq] at hin hage
        exact ⟨.inl (by omega), .inl (by omega)⟩
    obtain ⟨hi, hm⟩ := m.index_fresh w.base x.stamp (nblocks file bs) h6.mapper (by omega) (by omega) hfresh.1 hfresh.2
    have htk : x.bytes.take room = ackPacket x.stamp := by
      rw [hack]
      exact List.take_of_length_le (by show 4 ≤ room; omega)
    have hd : c.codec.dec (x.bytes.take room) = some (Packet.ack (UInt16.ofNat (x.stamp % 65536))).toBytes := by
      rw [h3.dec, ack_bytes, htk]
    obtain ⟨w', f1, f2, f3, f4⟩ := send_recv_ack (c := c) hbs0 h6 hd (by omega) hi hm
    rw [hsr] at f1 f4
    right
    cases hf : (clientSendRecv c s (x.bytes.take room)).finished with
    | true =>
      right
      have hb := f1.fin hf
      rw [h3.bs] at hb
      refine ⟨by rw [f4]; exact h4, rfl, by omega, ?_⟩
      have ht := f1.total
      rw [ht, hb, h3.bs, bytesIn_nblocks _ _ _ (by omega) (Nat.le_refl _)]
    | false =>
      left
      refine ⟨_, w', ⟨h1, h2, h3, by rw [f4]; exact h4, hf, f1, by omega, f3⟩, fun _ => ⟨f2, ?_⟩⟩
      rcases Nat.lt_or_ge x.stamp (nblocks file bs) with h | h
      · exact h
      · exfalso
        rcases f1.done (by rw [f2, h3.bs]; omega) with hf' | hf'
        · rw [hf] at hf'; cases hf'
        · rw [f4, h4] at hf'; cases hf'
  · have hcases : (x.bytes = answer ∧ x.stamp = 0 ∧ ∃ e, Packet.fromBytes answer = .ok (.optionalAck e)) ∨ ∃ text, x.bytes = [0, 5] ++ text := by
      rcases hx with hx | hx | hx
      · exact absurd hx.1 hack
      · rcases ha with ha | ha
        · exfalso
          apply hack
          rw [hx.1, hx.2, ha]
        · exact .inl ⟨hx.1, hx.2, ha⟩
      · exact .inr hx
    rcases hcases with ⟨hx1, hx2, e, he⟩ | ⟨text, hx⟩
    · have : clientSendRecv c s (x.bytes.take room) = s := by
        unfold clientSendRecv
        rw [h3.dec, hx1, List.take_of_length_le (by omega)]
        simp only [he]
      rw [this]
      right; left
      exact ⟨m, w, ⟨h1, h2, h3, h4, h5, h6, h7, rfl⟩, fun _ => ⟨by omega, by omega⟩⟩
    · unfold clientSendRecv
      rw [h3.dec]
      have : ([0, 5] ++ text : Bytes).take room = [0, 5] ++ text.take (room - 2) := by
        rw [List.take_append]
        congr 1
        exact List.take_of_length_le (by simp only [List.length_cons, List.length_nil]; omega)
      rw [hx, this]
      simp only
      rcases quit_read (text.take (room - 2)) with ⟨cc, mm, hp⟩ | ⟨ee, hp⟩
      · rw [hp]
        exact .inl ⟨rfl, text, rfl⟩
      · rw [hp]
        right; left
        exact ⟨m, w, ⟨h1, h2, h3, h4, h5, h6, h7, rfl⟩, fun hn => absurd ⟨text, rfl⟩ hn⟩

/-- One iteration of the sending client. -/
theorem up_iter {v : Cli S} {j : Job} {ep : Ep} {file : Bytes} {bs blocks top : Nat} {c : Cfg} {room : Nat} {s : SendSt} {m : Mapper} {w : Window}
    (h : UpAt file bs j.opts.window blocks top c room s m w) (hle : blocks ≤ top) {age : Option Nat}
    (hage : Distinct age j.opts.window (nblocks file bs)) {answer : Bytes} (ha : WriteAnswer answer) (hlen : answer.length ≤ 512) (since : Nat)
    (auth : Option Bytes) (i : CliIn)
    (hi : i.recv = .error ∨ i.recv = .wouldBlock ∨ ∃ x, i.recv = .dgram ep x.bytes ∧ PeerMail answer x ∧ x.stamp ≤ blocks ∧ inTime age x.stamp blocks = true) :
    ∃ top', UpState v j ep file bs blocks top' (v.step j (.up c room ep s since auth) i).1 ∧ top ≤ top' ∧ top' ≤ nblocks file bs ∧
      (∀ d ∈ (v.step j (.up c room ep s since auth) i).2, DataMail file bs j.opts.window top' ⟨d.2, blocks⟩) := by
  obtain ⟨w1, g1, g2, g3, g4, g5, -⟩ := up_turn h hle i _ rfl
  refine ⟨w1.top, ?_, g3, g4, ?_⟩
  · simp only [Cli.step, Cli.upStep]
    generalize clientSendTick c s i.retry i.fail i.wb i.net i.nonce = q at g1 g5 ⊢
    split
    · exact trivial
    · rename_i hf
      rcases g1 with g1 | g1
      · exact absurd g1 hf
      · rcases hi with hi | hi | ⟨x, hi, hx, hst, hin⟩
        · rw [hi]; exact trivial
        · rw [hi]
          simp only
          split
          · exact trivial
          · exact ⟨rfl, m, w1, g1⟩
        · rw [hi]
          simp only [g1.cfg.dec, Option.isNone_some, Bool.false_eq_true, if_false, ne_eq, not_true_eq_false]
          split
          · exact trivial
          · rename_i hnf
            rcases up_hear g1 (by omega) hage ha hlen hx hst hin with k | ⟨m', w', k, -⟩ | ⟨k1, k2, k3, k4⟩
            · exact absurd k.1 hnf
            · rw [if_neg (by rw [k.finished]; decide)]
              exact ⟨rfl, m', w', k⟩
            · rw [if_pos k2]
              exact ⟨k3, k4⟩
  · have hout : (v.step j (.up c room ep s since auth) i).2 = (((clientSendTick c s i.retry i.fail i.wb i.net i.nonce).2.map (·.bytes)).toList.map (ep, ·)) := by
      simp only [Cli.step, Cli.upStep]
      repeat' split
      all_goals rfl
    rw [hout]
    intro d hd
    simp only [List.mem_map, Option.mem_toList, Option.map_eq_some_iff] at hd
    obtain ⟨b, ⟨x, hx, rfl⟩, rfl⟩ := hd
    exact g5 x (Option.mem_toList.mpr hx)

/-- All together. -/
structure SdInv (v : Cli S) (j : Job) (ep : Ep) (file answer : Bytes) (X : Send) (top : Nat) : Prop where
  out : X.peer.out = file.take (bytesIn file (blockSize [answer]) X.peer.blocks)
  done : X.peer.done = true ↔ X.peer.blocks = nblocks file (blockSize [answer])
  le : X.peer.blocks ≤ top
  top_le : top ≤ nblocks file (blockSize [answer])
  big : 0 < top → 512 ≤ blockSize [answer]
  cli : UpState v j ep file (blockSize [answer]) X.peer.blocks top X.cli
  toPeer : ∀ m ∈ X.toPeer, m.stamp ≤ X.peer.blocks ∧ DataMail file (blockSize [answer]) j.opts.window top m
  toClient : ∀ m ∈ X.toClient, m.stamp ≤ X.peer.blocks ∧ PeerMail answer m

theorem deliver_some {age : Option Nat} {ms : List Mail} {now : Nat} {k : Option Nat} {b : Bytes} (h : deliver age ms now k = some b) :
    ∃ x ∈ ms, x.bytes = b ∧ inTime age x.stamp now = true := by
  unfold deliver at h
  split at h
  · rename_i x hx
    split at h
    · rename_i hin
      cases h
      cases k with
      | none => cases hx
      | some k => exact ⟨x, List.mem_of_getElem? hx, rfl, hin⟩
    · cases h
  · cases h

theorem received_cases (ep : Ep) (o : Option Bytes) (i : CliIn) : (received ep o i).recv = .error ∨ (received ep o i).recv = .wouldBlock ∨
    ∃ b, o = some b ∧ (received ep o i).recv = .dgram ep b := by
  unfold received
  cases o with
  | some b => exact .inr (.inr ⟨b, rfl, rfl⟩)
  | none => cases i.recv <;> simp

theorem UpState.done_stays {v : Cli S} {j : Job} {ep : Ep} {file : Bytes} {bs blocks blocks' top : Nat} {st : CliSt} (h : UpState v j ep file bs blocks top st)
    (hle : blocks ≤ blocks') (hN : blocks' ≤ nblocks file bs) : UpState v j ep file bs blocks' top st := by
  cases st with
  | query q => exact h
  | up c room ep' s since auth =>
    obtain ⟨h0, m, w, h1, h2, h3, h4, h5, h6, h7, h8⟩ := h
    exact ⟨h0, m, w, h1, h2, h3, h4, h5, h6, by omega, h8⟩
  | down => exact h
  | done r f =>
    cases r with
    | error e => exact trivial
    | ok x =>
      obtain ⟨h1, h2⟩ := h
      exact ⟨by omega, h2⟩

theorem SdInv.step {v : Cli S} {j : Job} (hp : Spec.NoEncryption j) {size : Option Nat} {file : Bytes} (hj : j.task = .upload size file)
    (hw : 1 ≤ j.opts.window) {ep : Ep} {answer : Bytes} (ha : WriteAnswer answer) (hlen : answer.length ≤ 512) {age : Option Nat}
    (hage : Distinct age j.opts.window (nblocks file (blockSize [answer]))) {X : Send} {top : Nat} (h : SdInv v j ep file answer X top) (e : SendEv) :
    ∃ top', SdInv v j ep file answer (X.step v j ep answer age e) top' := by
  obtain ⟨h1, h2, h3, h4, h5, h6, h7, h8⟩ := id h
  cases e with
  | client i k =>
    have hi : ∃ i', i' = received ep (deliver age X.toClient X.peer.blocks k) i := ⟨_, rfl⟩
    obtain ⟨i', hi'⟩ := hi
    have hr : i'.recv = .error ∨ i'.recv = .wouldBlock ∨
        ∃ x, i'.recv = .dgram ep x.bytes ∧ PeerMail answer x ∧ x.stamp ≤ X.peer.blocks ∧ inTime age x.stamp X.peer.blocks = true := by
      rcases received_cases ep (deliver age X.toClient X.peer.blocks k) i with g | g | ⟨b, g1, g2⟩
      · rw [← hi'] at g; exact .inl g
      · rw [← hi'] at g; exact .inr (.inl g)
      · obtain ⟨x, hx, rfl, hin⟩ := deliver_some g1
        rw [← hi'] at g2
        exact .inr (.inr ⟨x, g2, (h8 x hx).2, (h8 x hx).1, hin⟩)
    have key : ∃ top', UpState v j ep file (blockSize [answer]) X.peer.blocks top' (v.step j X.cli i').1 ∧ top ≤ top' ∧
        top' ≤ nblocks file (blockSize [answer]) ∧ (top < top' → 512 ≤ blockSize [answer]) ∧
        (∀ d ∈ (v.step j X.cli i').2, DataMail file (blockSize [answer]) j.opts.window top' ⟨d.2, X.peer.blocks⟩) := by
      cases hc : X.cli with
      | query q =>
        rw [hc] at h6
        obtain ⟨rfl, hroom⟩ := h6
        have hb0 : X.peer.blocks = 0 := by omega
        have hr' : i'.recv = .error ∨ i'.recv = .wouldBlock ∨ i'.recv = .dgram ep answer ∨ ∃ text, i'.recv = .dgram ep ([0, 5] ++ text) := by
          rcases hr with g | g | ⟨x, g, hx, hs, -⟩
          · exact .inl g
          · exact .inr (.inl g)
          · rcases hx with hx | hx | ⟨text, hx⟩
            · omega
            · rw [hx.1] at g; exact .inr (.inr (.inl g))
            · rw [hx] at g; exact .inr (.inr (.inr ⟨text, g⟩))
        obtain ⟨g1, g2⟩ := query_cases hp hj hw ha hlen hroom i' hr' X.peer.blocks
        exact ⟨0, g1, Nat.le_refl _, Nat.zero_le _, fun h => absurd h (Nat.lt_irrefl _), fun d hd => (g2 d hd).mail _ _ _ _ _⟩
      | up c room ep' s since auth =>
        rw [hc] at h6
        obtain ⟨rfl, m, w, h6⟩ := h6
        obtain ⟨top', g1, g2, g3, g4⟩ := up_iter (v := v) h6 h3 hage ha hlen since auth i' hr
        exact ⟨top', g1, g2, g3, fun _ => h6.big, g4⟩
      | down => rw [hc] at h6; exact absurd h6 id
      | done r f =>
        rw [hc] at h6
        exact ⟨top, h6, Nat.le_refl _, h4, fun h => absurd h (Nat.lt_irrefl _), by intro d hd; cases hd⟩
    obtain ⟨top', g1, g2, g3, g4, g5⟩ := key
    refine ⟨top', ?_⟩
    simp only [Send.step]
    rw [← hi']
    refine ⟨h1, h2, Nat.le_trans h3 g2, g3, ?_, g1, ?_, h8⟩
    · intro ht
      rcases Nat.lt_or_ge top top' with hl | hl
      · exact g4 hl
      · exact h5 (by omega)
    · intro x hx
      simp only [List.mem_append, List.mem_map, List.mem_filter] at hx
      rcases hx with ⟨d, ⟨hd, -⟩, rfl⟩ | hx
      · exact ⟨Nat.le_refl _, g5 d hd⟩
      · exact ⟨(h7 x hx).1, (h7 x hx).2.mono g2⟩
  | hear k =>
    simp only [Send.step]
    cases hd : deliver age X.toPeer X.peer.blocks (some k) with
    | none => exact ⟨top, h⟩
    | some b =>
      obtain ⟨x, hx, rfl, hin⟩ := deliver_some hd
      have hx' := h7 x hx
      have key : X.peer.hear (blockSize [answer]) x.bytes = X.peer ∨
          (X.peer.hear (blockSize [answer]) x.bytes).blocks = X.peer.blocks + 1 ∧ X.peer.blocks + 1 ≤ top ∧
          (X.peer.hear (blockSize [answer]) x.bytes).out = file.take (bytesIn file (blockSize [answer]) (X.peer.blocks + 1)) ∧
          ((X.peer.hear (blockSize [answer]) x.bytes).done = true ↔ X.peer.blocks + 1 = nblocks file (blockSize [answer])) := by
        rcases Nat.eq_zero_or_pos top with ht | ht
        · left
          unfold Receiver.hear
          split
          · rename_i hc
            have h2 : x.bytes.take 2 = [0, 3] := by
              have : x.bytes.take 2 = (x.bytes.take 4).take 2 := by simp [List.take_take]
              rw [this, hc.2]; rfl
            obtain ⟨kk, -, k1, k2, -⟩ := hx'.2 h2
            omega
          · rfl
        · exact hear_data hage (by have := h5 ht; omega) hx'.1 hin hx'.2 h1 h3 h4
      rcases key with g | ⟨g1, g2, g3, g4⟩
      · refine ⟨top, ?_⟩
        simp only
        rw [g]
        exact h
      · refine ⟨top, ⟨by simp only [g1, g3], by simp only [g1]; exact g4, by simp only [g1]; exact g2, h4, h5, ?_, ?_, ?_⟩⟩
        · simp only [g1]
          exact h6.done_stays (by omega) (by omega)
        · intro y hy
          exact ⟨by simp only [g1]; have := (h7 y hy).1; omega, (h7 y hy).2⟩
        · intro y hy
          exact ⟨by simp only [g1]; have := (h8 y hy).1; omega, (h8 y hy).2⟩
  | ack =>
    refine ⟨top, h1, h2, h3, h4, h5, h6, h7, ?_⟩
    intro m hm
    simp only [Send.step, List.mem_cons] at hm
    rcases hm with rfl | hm
    · refine ⟨Nat.le_refl _, ?_⟩
      by_cases hb : X.peer.blocks = 0
      · rw [if_pos hb]; exact .inr (.inl ⟨rfl, hb⟩)
      · rw [if_neg hb]; exact .inl ⟨rfl, by simp only; omega⟩
    · exact h8 m hm
  | quit text =>
    refine ⟨top, h1, h2, h3, h4, h5, h6, h7, ?_⟩
    intro m hm
    simp only [Send.step, List.mem_cons] at hm
    rcases hm with rfl | hm
    · exact ⟨Nat.le_refl _, .inr (.inr ⟨text, rfl⟩)⟩
    · exact h8 m hm

theorem SdInv.run {v : Cli S} {j : Job} (hp : Spec.NoEncryption j) {size : Option Nat} {file : Bytes} (hj : j.task = .upload size file)
    (hw : 1 ≤ j.opts.window) {ep : Ep} {answer : Bytes} (ha : WriteAnswer answer) (hlen : answer.length ≤ 512) {age : Option Nat}
    (hage : Distinct age j.opts.window (nblocks file (blockSize [answer]))) (es : List SendEv) {X : Send} {top : Nat}
    (h : SdInv v j ep file answer X top) : ∃ top', SdInv v j ep file answer (X.run v j ep answer age es) top' := by
  induction es generalizing X top with
  | nil => exact ⟨top, h⟩
  | cons e r ih =>
    obtain ⟨top', h'⟩ := h.step hp hj hw ha hlen hage e
    exact ih h'

theorem SdInv.init (v : Cli S) (j : Job) (t : Nat) (ep : Ep) (file answer : Bytes) : SdInv v j ep file answer (Send.init v j t) 0 := by
  refine ⟨by simp [Send.init, bytesIn], ?_, Nat.le_refl _, Nat.zero_le _, fun h => absurd h (Nat.lt_irrefl _), ⟨rfl, fun _ => ?_⟩, ?_, ?_⟩
  · simp only [Send.init, Bool.false_eq_true, false_iff]
    exact (Nat.succ_ne_zero _).symm
  · show 516 ≤ max _ _
    omega
  · intro m hm; cases hm
  · intro m hm; cases hm

theorem SdInv.lost {v : Cli S} {j : Job} {ep : Ep} {file answer : Bytes} {X : Send} {top : Nat} (h : SdInv v j ep file answer X top) :
    SdInv v j ep file answer X.lost top := by
  obtain ⟨h1, h2, h3, h4, h5, h6, h7, h8⟩ := h
  exact ⟨h1, h2, h3, h4, h5, h6, (by intro m hm; cases hm), (by intro m hm; cases hm)⟩

/-! ### Completion -/

/-- An iteration in which nothing goes wrong and the retransmission is due. -/
def fine : CliIn := ⟨0, .wouldBlock, true, 0, 0, true, false, false, .sent, .all⟩

theorem deliver_zero (age : Option Nat) (m : Mail) (ms : List Mail) : deliver age (m :: ms) m.stamp (some 0) = some m.bytes := by
  simp [deliver, inTime_self]

/-- The server acknowledges what it has, and the client hears of it. -/
theorem send_ack {v : Cli S} {j : Job} {ep : Ep} {file answer : Bytes} (ha : WriteAnswer answer) (hlen : answer.length ≤ 512) {age : Option Nat}
    (hage : Distinct age j.opts.window (nblocks file (blockSize [answer]))) {X : Send} {top : Nat} (h : SdInv v j ep file answer X top)
    {c : Cfg} {room : Nat} {ep' : Ep} {s : SendSt} {since : Nat} {auth : Option Bytes} (hc : X.cli = .up c room ep' s since auth) (Y : Send)
    (hY : Y = X.run v j ep answer age [.ack, .client fine (some 0)]) :
    Y.peer = X.peer ∧
    (X.peer.blocks = nblocks file (blockSize [answer]) → ∃ r f, Y.cli = .done (.ok (file.length, r)) f) ∧
    (X.peer.blocks < nblocks file (blockSize [answer]) → ∃ s' since' m' w' top', Y.cli = .up c room ep s' since' auth ∧
      UpAt file (blockSize [answer]) j.opts.window X.peer.blocks top' c room s' m' w' ∧ w'.base = X.peer.blocks) := by
  have hcli := h.cli
  rw [hc] at hcli
  obtain ⟨rfl, m, w, hup⟩ := hcli
  have hx : ∃ x : Mail, x = ⟨if X.peer.blocks = 0 then answer else ackPacket X.peer.blocks, X.peer.blocks⟩ := ⟨_, rfl⟩
  obtain ⟨x, hx⟩ := hx
  have hs : x.stamp = X.peer.blocks := by rw [hx]
  have hpm : PeerMail answer x := by
    by_cases hb : X.peer.blocks = 0
    · right; left; rw [hx, if_pos hb]; exact ⟨rfl, hb⟩
    · left; rw [hx, if_neg hb]; exact ⟨rfl, by simp only; omega⟩
  have hne : ¬ ∃ text, x.bytes = [0, 5] ++ text := by
    rintro ⟨text, ht⟩
    have hack : ∀ k, ackPacket k ≠ [0, 5] ++ text := by intro k hk; simp [ackPacket] at hk
    by_cases hb : X.peer.blocks = 0
    · have : x.bytes = answer := by rw [hx]; simp only [hb, if_true]
      rw [this] at ht
      rcases ha with ha | ⟨e, he⟩
      · rw [ha] at ht; exact hack _ ht
      · rw [ht] at he
        rcases quit_read text with ⟨_, _, hq⟩ | ⟨_, hq⟩ <;> rw [hq] at he <;> cases he
    · have : x.bytes = ackPacket X.peer.blocks := by rw [hx]; simp only [hb, if_false]
      rw [this] at ht
      exact hack _ ht
  have hdl : deliver age (x :: X.toClient) X.peer.blocks (some 0) = some x.bytes := by rw [← hs]; exact deliver_zero _ _ _
  have hcl : Y.cli = (v.step j (.up c room ep' s since auth) { fine with recv := .dgram ep' x.bytes }).1 := by
    rw [hY]
    simp only [Send.run, List.foldl_cons, List.foldl_nil, Send.step]
    rw [hc, ← hx, hdl]
    rfl
  refine ⟨by rw [hY]; rfl, ?_⟩
  obtain ⟨w1, g1, g2, g3, g4, g5, g6⟩ := up_turn hup h.le { fine with recv := .dgram ep' x.bytes } _ rfl
  have hnf := (g6 rfl rfl).1
  simp only [Cli.step, Cli.upStep] at hcl
  generalize clientSendTick c s _ _ _ _ _ = q at g1 g5 hcl hnf
  have g1 : UpAt file (blockSize [answer]) j.opts.window X.peer.blocks w1.top c room q.1 m w1 := by
    rcases g1 with g1 | g1
    · rw [hnf] at g1; cases g1
    · exact g1
  rw [if_neg (by rw [hnf]; decide)] at hcl
  simp only [g1.cfg.dec, Option.isNone_some, Bool.false_eq_true, if_false, ne_eq, not_true_eq_false] at hcl
  have hle := h.le
  rcases up_hear g1 (by omega) hage ha hlen hpm (by omega) (by rw [hs]; exact inTime_self _ _) with ⟨-, k⟩ | ⟨m', w', k1, k2⟩ | ⟨k1, k2, k3, k4⟩
  · exact absurd k hne
  · obtain ⟨k2, k3⟩ := k2 hne
    refine ⟨fun h => absurd k3 (by omega), fun _ => ?_⟩
    rw [if_neg (by rw [k1.failed]; decide), if_neg (by rw [k1.finished]; decide)] at hcl
    have hb := g1.base
    exact ⟨_, _, m', w', _, hcl, k1, by omega⟩
  · refine ⟨fun _ => ?_, fun h => by omega⟩
    rw [if_neg (by rw [k1]; decide), if_pos k2, k4] at hcl
    exact ⟨_, _, hcl⟩

/-- The client, which has heard of everything, sends the next block and the server takes it. -/
theorem send_next {v : Cli S} {j : Job} {ep : Ep} {file answer : Bytes} {age : Option Nat} {X : Send} {top : Nat}
    (h : SdInv v j ep file answer X top) {c : Cfg} {room : Nat} {s : SendSt} {since : Nat} {auth : Option Bytes} {m : Mapper} {w : Window} {top' : Nat}
    (hc : X.cli = .up c room ep s since auth) (hup : UpAt file (blockSize [answer]) j.opts.window X.peer.blocks top' c room s m w)
    (hle : X.peer.blocks ≤ top') (hb : w.base = X.peer.blocks) (hlt : X.peer.blocks < nblocks file (blockSize [answer])) (Y : Send)
    (hY : Y = X.run v j ep answer age [.client fine none, .hear 0]) :
    Y.peer.blocks = X.peer.blocks + 1 ∧ ∃ s', Y.cli = .up c room ep s' since auth := by
  obtain ⟨w1, g1, g2, g3, g4, g5, g6⟩ := up_turn hup hle fine _ rfl
  obtain ⟨hnf, g6⟩ := g6 rfl rfl
  have g6 := g6 rfl hb hlt
  have hst : v.step j (.up c room ep s since auth) fine =
      (.up c room ep (clientSendTick c s fine.retry fine.fail fine.wb fine.net fine.nonce).1 since auth,
        [(ep, dataPacket (X.peer.blocks + 1) (block file (blockSize [answer]) (X.peer.blocks + 1)))]) := by
    simp only [Cli.step, Cli.upStep]
    generalize clientSendTick c s fine.retry fine.fail fine.wb fine.net fine.nonce = q at g1 g5 g6 hnf
    rw [if_neg (by rw [hnf]; decide), g6]
    simp only [fine, Nat.zero_sub]
    rw [if_neg (by omega)]
    rfl
  have hrec : received ep (deliver age X.toClient X.peer.blocks none) fine = fine := rfl
  have e1 : X.step v j ep answer age (.client fine none) = { X with
      cli := .up c room ep (clientSendTick c s fine.retry fine.fail fine.wb fine.net fine.nonce).1 since auth
      toPeer := ⟨dataPacket (X.peer.blocks + 1) (block file (blockSize [answer]) (X.peer.blocks + 1)), X.peer.blocks⟩ :: X.toPeer } := by
    simp only [Send.step]
    rw [hrec, hc, hst]
    simp
  have hnd : X.peer.done = false := by
    cases hd : X.peer.done with
    | false => rfl
    | true => have := h.done.mp hd; omega
  rw [hY]
  simp only [Send.run, List.foldl_cons, List.foldl_nil]
  rw [e1]
  simp only [Send.step]
  rw [deliver_zero age ⟨dataPacket (X.peer.blocks + 1) (block file (blockSize [answer]) (X.peer.blocks + 1)), X.peer.blocks⟩ X.toPeer]
  simp only [Receiver.hear, dataPacket_head, hnd, and_self, if_true, true_and]
  exact ⟨_, rfl⟩

theorem Send.run_append (v : Cli S) (j : Job) (ep : Ep) (answer : Bytes) (age : Option Nat) (X : Send) (es fs : List SendEv) :
    X.run v j ep answer age (es ++ fs) = (X.run v j ep answer age es).run v j ep answer age fs := List.foldl_append

theorem send_completes {v : Cli S} {j : Job} (hp : Spec.NoEncryption j) {size : Option Nat} {file : Bytes} (hj : j.task = .upload size file)
    (hw : 1 ≤ j.opts.window) {ep : Ep} {answer : Bytes} (ha : WriteAnswer answer) (hlen : answer.length ≤ 512) {age : Option Nat}
    (hage : Distinct age j.opts.window (nblocks file (blockSize [answer]))) (n : Nat) :
    ∀ {X : Send} {top : Nat}, SdInv v j ep file answer X top → n + X.peer.blocks = nblocks file (blockSize [answer]) →
    ∀ c room ep' s since auth, X.cli = .up c room ep' s since auth →
    ∃ es r f, (X.run v j ep answer age es).peer.blocks = nblocks file (blockSize [answer]) ∧
      (X.run v j ep answer age es).cli = .done (.ok (file.length, r)) f := by
  induction n with
  | zero =>
    intro X top h hn c room ep' s since auth hc
    obtain ⟨g1, g2, -⟩ := send_ack ha hlen hage h hc _ rfl
    obtain ⟨r, f, g2⟩ := g2 (by omega)
    exact ⟨_, r, f, by rw [g1]; omega, g2⟩
  | succ n ih =>
    intro X top h hn c room ep' s since auth hc
    obtain ⟨g1, -, g2⟩ := send_ack ha hlen hage h hc _ rfl
    obtain ⟨s1, since1, m1, w1, top1, g3, g4, g5⟩ := g2 (by omega)
    obtain ⟨t1, h1⟩ := h.run hp hj hw ha hlen hage [.ack, .client fine (some 0)]
    generalize hX1 : X.run v j ep answer age [.ack, .client fine (some 0)] = X1 at g1 g3 h1
    rw [← g1] at g4 g5
    have hle1 : X1.peer.blocks ≤ top1 := by
      have e1 := g4.top
      have := g4.inv.sim.inv
      have := this.base_cur
      have := g4.inv.sim.inv.cur_top
      omega
    obtain ⟨k1, s2, k2⟩ := send_next (age := age) h1 g3 g4 hle1 g5 (by rw [g1]; omega) _ rfl
    obtain ⟨t2, h2⟩ := h1.run hp hj hw ha hlen hage [.client fine none, .hear 0]
    obtain ⟨es, r, f, q1, q2⟩ := ih h2 (by rw [k1, g1]; omega) _ _ _ _ _ _ k2
    refine ⟨[.ack, .client fine (some 0)] ++ ([.client fine none, .hear 0] ++ es), r, f, ?_, ?_⟩
    · rw [Send.run_append, hX1, Send.run_append]; exact q1
    · rw [Send.run_append, hX1, Send.run_append]; exact q2

/-! ### The options -/

theorem created {o : Opts} (hl : o.level = .none) (keys : InitialKeys S) :
    createExtensions o keys .blockSize = (if o.blockSize ≠ 512 then some (decimal o.blockSize) else none) ∧
    createExtensions o keys .windowSize = (if o.window ≠ 1 then some (decimal o.window) else none) ∧
    createExtensions o keys .transferSize = o.fileSize.map decimal := by
  unfold createExtensions
  simp only [hl, ne_eq, not_true_eq_false, if_false]
  refine ⟨?_, ?_, ?_⟩
  all_goals cases o.fileSize <;> by_cases h1 : o.blockSize = 512 <;> by_cases h2 : o.window = 1 <;> by_cases h3 : o.retry ≠ 80 ∧ o.retry / 1000 ≥ 1 <;>
    simp [h1, h2, h3, Exts.insert, Exts.empty]

/-- An OACK of the RFCs is accepted. -/
theorem confirms_accept {o : Opts} (hl : o.level = .none) (hb : o.blockSize ≤ 65535) (hw : o.window ≤ 65535)
    (hs : ∀ n, o.fileSize = some n → n < 2 ^ 64) {keys : InitialKeys S} {used e : Exts} (hu : used = createExtensions o keys ∨ used = Exts.empty)
    (hc : Confirms used e) (hasKey : Bool) (known : Option Bytes) : ∃ o', cliOack S hasKey known used o e = (.ok (o', none), []) := by
  obtain ⟨c1, c2, c3, c4, c5⟩ := hc
  obtain ⟨k1, k2, k3⟩ := created hl keys
  have hE : ∀ (k : Extension) (m n : Nat), Spec.requested Exts.empty k m = some n → False := by intro k m n h; cases h
  have r1 : ∀ m, Spec.requested used .blockSize 65535 = some m → m = o.blockSize := by
    intro m hm
    rcases hu with rfl | rfl
    · unfold Spec.requested at hm
      rw [k1] at hm
      split at hm
      · simp only [Option.bind_some, parse_decimal _ _ hb, Option.some.injEq] at hm; exact hm.symm
      · cases hm
    · exact (hE _ _ _ hm).elim
  have r2 : ∀ m, Spec.requested used .windowSize 65535 = some m → m = o.window := by
    intro m hm
    rcases hu with rfl | rfl
    · unfold Spec.requested at hm
      rw [k2] at hm
      split at hm
      · simp only [Option.bind_some, parse_decimal _ _ hw, Option.some.injEq] at hm; exact hm.symm
      · cases hm
    · exact (hE _ _ _ hm).elim
  have r3 : ∀ m, Spec.requested used .transferSize (2 ^ 64 - 1) = some m → o.fileSize = some m := by
    intro m hm
    rcases hu with rfl | rfl
    · unfold Spec.requested at hm
      rw [k3] at hm
      cases hf : o.fileSize with
      | none => rw [hf] at hm; cases hm
      | some n =>
        have := hs n hf
        rw [hf] at hm
        simp only [Option.map_some, Option.bind_some, parse_decimal (2 ^ 64 - 1) n (by omega), Option.some.injEq] at hm
        rw [hm]
    · exact (hE _ _ _ hm).elim
  have n1 : ∃ o1, cliBlock e o = .ok o1 ∧ o1.window = o.window ∧ o1.fileSize = o.fileSize ∧ o1.level = o.level := by
    unfold cliBlock
    cases he : e .blockSize with
    | none => exact ⟨_, rfl, rfl, rfl, rfl⟩
    | some t =>
      obtain ⟨n, m, q1, q2, q3, q4⟩ := c2 t he
      rw [r1 m q3] at q4
      simp only [q1, Option.getD_some]
      rw [if_pos ⟨q2, q4⟩]
      exact ⟨_, rfl, rfl, rfl, rfl⟩
  obtain ⟨o1, n1, w1, f1, l1⟩ := n1
  have n2 : ∃ o2, cliWindow e o1 = .ok o2 ∧ o2.fileSize = o.fileSize ∧ o2.level = o.level := by
    unfold cliWindow
    cases he : e .windowSize with
    | none => exact ⟨_, rfl, f1, l1⟩
    | some t =>
      obtain ⟨n, m, q1, q2, q3, q4⟩ := c3 t he
      rw [r2 m q3, ← w1] at q4
      simp only [q1, Option.getD_some]
      rw [if_pos ⟨q2, q4⟩]
      exact ⟨_, rfl, f1, l1⟩
  obtain ⟨o2, n2, f2, l2⟩ := n2
  have n3 : ∃ o3, cliTimeout e o2 = .ok o3 ∧ o3.fileSize = o.fileSize ∧ o3.level = o.level := by
    unfold cliTimeout
    cases he : e .timeout with
    | none => exact ⟨_, rfl, f2, l2⟩
    | some t =>
      obtain ⟨n, q1, q2⟩ := c4 t he
      have q3 : n ≤ 255 := parseUInt_le _ _ _ q1
      simp only [q1, Option.getD_some]
      rw [if_pos ⟨q2, q3⟩]
      exact ⟨_, rfl, f2, l2⟩
  obtain ⟨o3, n3, f3, l3⟩ := n3
  have n4 : ∃ o4, cliSize e o3 = .ok o4 ∧ o4.level = o.level := by
    unfold cliSize
    cases he : e .transferSize with
    | none => exact ⟨_, rfl, l3⟩
    | some t =>
      simp only
      rcases c5 t he with q | ⟨n, q1, q2⟩
      · rw [if_pos (.inr (by rw [f3]; exact r3 _ q))]
        exact ⟨_, rfl, l3⟩
      · have q2 := r3 _ q2
        split
        · exact ⟨_, rfl, l3⟩
        · rw [if_neg (by rw [f3, q2, q1]; simp)]
          exact ⟨_, rfl, l3⟩
  obtain ⟨o4, n4, l4⟩ := n4
  have hpar : cliParse S e o = .ok (o4, none) := by
    unfold cliParse cliNumbers
    rw [n1]
    simp only
    rw [n2]
    simp only
    rw [n3]
    simp only
    rw [n4]
    simp only
    rw [if_pos (by rw [l4]; exact hl)]
  refine ⟨o4, ?_⟩
  unfold cliOack
  rw [if_pos ((validateExtensions_iff _ _).mpr c1), hpar]
  simp only
  rw [if_neg (by rw [l4, hl]; simp)]

/-- The options with which the waiting client makes its request. -/
def AskState (v : Cli S) (j : Job) : CliSt → Prop
  | .query q => q.used = q.exts ∧ (q.exts = (v.start j 0).exts ∨ q.exts = Exts.empty)
  | _ => True

theorem AskState.step {v : Cli S} {j : Job} {st : CliSt} (h : AskState v j st) (i : CliIn) : AskState v j (v.step j st i).1 := by
  have hup : ∀ r : CliSt, (∀ q, r ≠ .query q) → AskState v j r := by
    intro r hr
    cases r with
    | query q => exact absurd rfl (hr q)
    | _ => exact trivial
  cases st with
  | query q =>
    obtain ⟨h1, h2⟩ := h
    simp only [Cli.step, Cli.queryStep]
    repeat' split
    all_goals first | exact trivial | exact ⟨h1, h2⟩ | exact ⟨rfl, .inr rfl⟩ | skip
    apply hup
    intro q hq
    rename_i ack o' rk first _
    have key : ∀ ep, ∀ q, (v.accepted j ep ack o' rk first i).1 ≠ .query q := by
      intro ep q hq
      unfold Cli.accepted at hq
      simp only at hq
      repeat' split at hq
      all_goals cases hq
    exact key _ q hq
  | up c room ep s since auth =>
    apply hup
    intro q hq
    simp only [Cli.step, Cli.upStep] at hq
    repeat' split at hq
    all_goals cases hq
  | down c room ep s since auth =>
    apply hup
    intro q hq
    simp only [Cli.step, Cli.downStep] at hq
    repeat' split at hq
    all_goals cases hq
  | done r f => exact trivial

theorem AskState.run {v : Cli S} {j : Job} {ep : Ep} {answer : Bytes} {age : Option Nat} (es : List SendEv) {X : Send} (h : AskState v j X.cli) :
    AskState v j (X.run v j ep answer age es).cli := by
  induction es generalizing X with
  | nil => exact h
  | cons e r ih =>
    apply ih
    cases e with
    | client i k => exact h.step _
    | hear k =>
      simp only [Send.step]
      split <;> exact h
    | ack => exact h
    | quit text => exact h

/-- The answer reaches the waiting client. -/
theorem query_accept {v : Cli S} {j : Job} (hp : Spec.NoEncryption j) {size : Option Nat} {file : Bytes} (hj : j.task = .upload size file)
    (hb : j.opts.blockSize ≤ 65535) (hw : j.opts.window ≤ 65535) (hs : ∀ n, size = some n ∨ j.opts.fileSize = some n → n < 2 ^ 64)
    {ep : Ep} (hep : ep = v.cfg.endpoint ∨ ep.ip = v.cfg.endpoint.ip ∧ v.cfg.allowPortChange = true) {answer : Bytes} (hlen : answer.length ≤ 512) {q : Query}
    (hq : AskState v j (.query q)) (hroom : 516 ≤ q.room)
    (ha : answer = ackPacket 0 ∨ ∃ e, Packet.fromBytes answer = .ok (.optionalAck e) ∧ Confirms q.exts e) :
    ∃ c room s since auth, (v.step j (.query q) { fine with recv := .dgram ep answer }).1 = .up c room ep s since auth := by
  have hopts := plain_requestOpts v j hp
  have hip : ep.ip = v.cfg.endpoint.ip := by
    rcases hep with rfl | h
    · rfl
    · exact h.1
  have hport : ¬ (ep ≠ v.cfg.endpoint ∧ v.cfg.allowPortChange = false) := by
    rintro ⟨h1, h2⟩
    rcases hep with h | h
    · exact h1 h
    · rw [h.2] at h2; cases h2
  have hrecv : ∀ b, (v.initialSock j.opts).1.recv b = some b := by intro b; rw [plain_sock v j hp]; rfl
  have hwrite : j.write = true := by unfold Job.write; rw [hj]
  have hacc : ∃ ack o' rk first, v.reply j.write (v.requestOpts j) q.used q.initial answer = .accept ack o' rk first := by
    rcases ha with rfl | ⟨e, he, hc⟩
    · unfold Cli.reply
      have hack : Packet.fromBytes (ackPacket 0) = .ok (.ack 0) := by rw [← ack_bytes]; exact decode_ack _
      rw [hack]
      simp only [hwrite, if_true]
      exact ⟨_, _, _, _, rfl⟩
    · unfold Cli.reply
      rw [he]
      simp only
      obtain ⟨q1, q2⟩ := hq
      obtain ⟨o', h⟩ := confirms_accept (S := S) hopts.1 (by rw [hopts.2.2]; exact hb) (by rw [hopts.2.1]; exact hw) (by
        intro n hn
        apply hs n
        unfold Cli.requestOpts at hn
        rw [plain_sock v j hp, hj] at hn
        cases size with
        | none => exact .inr hn
        | some k =>
          simp only at hn
          split at hn
          · exact .inl hn
          · exact .inr hn) (keys := ⟨v.sessionPub, v.cfg.privateKey⟩) (used := q.used) (e := e) (by rw [q1]; exact q2) (by rw [q1]; exact hc)
        v.cfg.privateKey.isSome v.cfg.remoteKey
      rw [h]
      exact ⟨_, _, _, _, rfl⟩
  obtain ⟨ack, o', rk, first, hacc⟩ := hacc
  simp only [Cli.step, Cli.queryStep, fine, plain_put v j hp, hrecv]
  rw [List.take_of_length_le (by omega), if_neg (by rw [hip]; simp), if_neg hport, hacc]
  simp only [Cli.accepted, hj, accepted_cfg v j hp]
  have hem : ∀ n k p, (v.cfgOf ⟨none, .none, [], o'.payload⟩ o').emit n k p = some ⟨k, p.toBytes⟩ := by
    intro n k p; rfl
  simp only [hem, if_true, Option.map_some]
  cases ack with
  | true => exact ⟨_, _, _, _, _, rfl⟩
  | false => exact ⟨_, _, _, _, _, rfl⟩

/-! ### C83 -/

/-- **C83**, what arrives: this client uploads `file` without encryption to a server which follows the RFCs and answers with an acknowledgement
or an OACK of its choice. In any schedule and with any losses, duplicates, delays and reorderings the server has at all times a prefix of the
file in whole blocks of the size which it has confirmed; when it considers the transfer complete, it has the file; and the client reports
success only then, with the number of bytes of the file. -/
theorem c83_upload (v : Cli S) (j : Job) (hp : Spec.NoEncryption j) (size : Option Nat) (file : Bytes) (hj : j.task = .upload size file)
    (hw : 1 ≤ j.opts.window) (ep : Ep) (answer : Bytes) (ha : WriteAnswer answer) (hlen : answer.length ≤ 512) (age : Option Nat)
    (hage : Distinct age j.opts.window (file.length / blockSize [answer] + 1)) (t : Nat) (es : List SendEv) (X : Send)
    (hX : X = (Send.init v j t).run v j ep answer age es) :
    X.peer.out = file.take (X.peer.blocks * blockSize [answer]) ∧ (X.peer.done = true → X.peer.out = file) ∧
    (∀ n r f, X.cli = .done (.ok (n, r)) f → X.peer.done = true ∧ n = file.length) := by
  obtain ⟨top, h⟩ := (SdInv.init v j t ep file answer).run hp hj hw ha hlen (age := age) hage es
  rw [← hX] at h
  refine ⟨by rw [h.out, bytesIn_take], ?_, ?_⟩
  · intro hd
    have hb := h.done.mp hd
    have hbig : 512 ≤ blockSize [answer] := h.big (by have := h.le; have := nblocks_pos file (blockSize [answer]); omega)
    rw [h.out, hb, bytesIn_nblocks _ _ _ (by omega) (Nat.le_refl _)]
    exact List.take_of_length_le (l := file) (Nat.le_refl _)
  · intro n r f hc
    have hcli := h.cli
    rw [hc] at hcli
    exact ⟨h.done.mpr hcli.1, hcli.2⟩

/-- **C83**, completion: from every state of such a transfer in which the client has not given up it can be completed on both sides,
even if everything under way is lost, if the server's answer confirms nothing else than the client asks for and comes from an address the client accepts. -/
theorem c83_completes (v : Cli S) (j : Job) (hp : Spec.NoEncryption j) (size : Option Nat) (file : Bytes) (hj : j.task = .upload size file)
    (hb : j.opts.blockSize ≤ 65535) (hw : 1 ≤ j.opts.window ∧ j.opts.window ≤ 65535) (hs : ∀ n, size = some n ∨ j.opts.fileSize = some n → n < 2 ^ 64)
    (ep : Ep) (hep : ep = v.cfg.endpoint ∨ ep.ip = v.cfg.endpoint.ip ∧ v.cfg.allowPortChange = true)
    (answer : Bytes) (ha : WriteAnswer answer) (hlen : answer.length ≤ 512) (age : Option Nat)
    (hage : Distinct age j.opts.window (file.length / blockSize [answer] + 1)) (t : Nat) (es : List SendEv) (X : Send)
    (hX : X = (Send.init v j t).run v j ep answer age es) (hgo : ∀ r f, X.cli ≠ .done r f)
    (hopts : ∀ q e, X.cli = .query q → Packet.fromBytes answer = .ok (.optionalAck e) → Confirms q.exts e) :
    ∃ fs r f, (X.lost.run v j ep answer age fs).peer.done = true ∧ (X.lost.run v j ep answer age fs).peer.out = file ∧
      (X.lost.run v j ep answer age fs).cli = .done (.ok (file.length, r)) f := by
  obtain ⟨top, h⟩ := (SdInv.init v j t ep file answer).run hp hj hw.1 ha hlen (age := age) hage es
  rw [← hX] at h
  have hask : AskState v j X.cli := by
    rw [hX]
    exact AskState.run es (X := Send.init v j t) ⟨rfl, .inl rfl⟩
  replace h := h.lost
  have hup : ∀ (Y : Send) (top : Nat), SdInv v j ep file answer Y top → (∃ c room ep' s since auth, Y.cli = .up c room ep' s since auth) →
      ∃ fs r f, (Y.run v j ep answer age fs).peer.done = true ∧ (Y.run v j ep answer age fs).peer.out = file ∧
        (Y.run v j ep answer age fs).cli = .done (.ok (file.length, r)) f := by
    rintro Y top hY ⟨c, room, ep', s, since, auth, hc⟩
    have hle : Y.peer.blocks ≤ nblocks file (blockSize [answer]) := Nat.le_trans hY.le hY.top_le
    obtain ⟨fs, r, f, q1, q2⟩ := send_completes hp hj hw.1 ha hlen (age := age) hage (nblocks file (blockSize [answer]) - Y.peer.blocks) hY (by omega) _ _ _ _ _ _ hc
    obtain ⟨top', h2⟩ := hY.run hp hj hw.1 ha hlen (age := age) hage fs
    refine ⟨fs, r, f, h2.done.mpr q1, ?_, q2⟩
    have hbig : 512 ≤ blockSize [answer] := h2.big (by have := h2.le; have := nblocks_pos file (blockSize [answer]); omega)
    rw [h2.out, q1, bytesIn_nblocks _ _ _ (by omega) (Nat.le_refl _)]
    exact List.take_of_length_le (l := file) (Nat.le_refl _)
  cases hc : X.cli with
  | up c room ep' s since auth => exact hup X.lost top h ⟨_, _, _, _, _, _, hc⟩
  | down => have : UpState v j ep file _ X.peer.blocks top X.cli := h.cli; rw [hc] at this; exact absurd this id
  | done r f => exact absurd hc (hgo r f)
  | query q =>
    have hcli : UpState v j ep file (blockSize [answer]) X.peer.blocks top X.cli := h.cli
    rw [hc] at hcli hask
    have hip : ep.ip = v.cfg.endpoint.ip := by
      rcases hep with rfl | h
      · rfl
      · exact h.1
    have hb0 : X.peer.blocks = 0 := by have : X.peer.blocks ≤ top := h.le; have := hcli.1; omega
    obtain ⟨c, room, s, since, auth, hst⟩ := query_accept hp hj hb hw.2 hs hep hlen hask (hcli.2 hip) (by
      rcases ha with ha | ⟨e, he⟩
      · exact .inl ha
      · exact .inr ⟨e, he, hopts q e hc he⟩)
    obtain ⟨top1, h1⟩ := h.run hp hj hw.1 ha hlen (age := age) hage [.ack, .client fine (some 0)]
    have hc1 : (X.lost.run v j ep answer age [.ack, .client fine (some 0)]).cli = .up c room ep s since auth := by
      rw [← hst]
      simp only [Send.run, List.foldl_cons, List.foldl_nil, Send.step, Send.lost]
      rw [hc, hb0, if_pos rfl]
      have hd : deliver age [⟨answer, 0⟩] 0 (some 0) = some answer := deliver_zero age ⟨answer, 0⟩ []
      rw [hd]
      rfl
    obtain ⟨fs, r, f, q1, q2, q3⟩ := hup _ top1 h1 ⟨_, _, _, _, _, _, hc1⟩
    refine ⟨[.ack, .client fine (some 0)] ++ fs, r, f, ?_⟩
    rw [Send.run_append]
    exact ⟨q1, q2, q3⟩

end Tftp.Rfc

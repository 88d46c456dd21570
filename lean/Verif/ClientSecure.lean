import Verif.ClientPlain
/-
C25: a client which must encrypt.
-/
namespace Tftp

/-- Specification: levels with which the user insists on encryption. -/
def Spec.Mandatory (l : Level) : Prop := l = .data ∨ l = .protocol ∨ l = .full

/-- Specification: a cipher shared with the server: of the session, or of the handshake with the server key the user knows. -/
def Spec.Shared {S} (v : Cli S) (A : Aead) : Prop :=
  (∃ k, A = v.session k) ∨ (∃ k, v.cfg.remoteKey = some k ∧ A = v.handshake k)

/-- Specification: the datagram is an encryption under a shared cipher: a whole packet, a data packet with encrypted payload, or
the encrypted request. -/
def Spec.Encrypted {S} (v : Cli S) (d : Bytes) : Prop :=
  ∃ A nonce b, Spec.Shared v A ∧ (nonce : Bytes).length = 24 ∧
    ((∃ size, sealPacket A nonce b size = .ok d) ∨ (sealData A nonce b = .ok d ∧ packetType b = some .data) ∨
     (∃ size, sealInitial A nonce v.handshakePub b size = .ok d))

/-- Specification: no file data leaves the client in the clear: what is sent is encrypted or not a data packet. -/
def Spec.Covered {S} (v : Cli S) (d : Bytes) : Prop := Spec.Encrypted v d ∨ packetType d ≠ some .data

/-- A transfer whose datagrams are protected with a shared cipher at a mandatory level. -/
def SecureCfg {S} (v : Cli S) (c : Cfg) : Prop :=
  ∃ A l, Spec.Shared v A ∧ Spec.Mandatory l ∧ c.codec = Codec.level A l _ v.nonce v.nonce_length

def SecureSt {S} (v : Cli S) : CliSt → Prop
  | .up c _ _ _ _ _ => SecureCfg v c
  | .down c _ _ _ _ _ => SecureCfg v c
  | .query _ => False
  | .done _ _ => True

theorem emit_covered {S} {v : Cli S} {c : Cfg} (h : SecureCfg v c) {n t p d} (he : c.emit n t p = some d) : Spec.Covered v d.bytes := by
  obtain ⟨A, l, hA, hl, hc⟩ := h
  unfold Cfg.emit at he
  rw [hc] at he
  obtain ⟨b, hb, rfl⟩ := Option.map_eq_some_iff.mp he
  simp only [Codec.level] at hb
  have hpk : ∀ x, (match sealPacket A (v.nonce n) p.toBytes (c.bs + 4) with | .ok d => some d | _ => none) = some x →
      Spec.Covered v x := by
    intro x hx
    split at hx
    · rename_i d hd
      cases hx
      exact .inl ⟨A, v.nonce n, p.toBytes, hA, v.nonce_length n, .inl ⟨_, hd⟩⟩
    · cases hx
  rcases hl with rfl | rfl | rfl
  · simp only [protect] at hb
    split at hb
    · rename_i d hd
      cases hb
      split at hd
      · rename_i hpt
        exact .inl ⟨A, v.nonce n, p.toBytes, hA, v.nonce_length n, .inr (.inl ⟨hd, hpt⟩)⟩
      · cases hd
        rename_i hpt
        exact .inr hpt
    · cases hb
  · exact hpk _ hb
  · exact hpk _ hb

theorem tick_covered {S} {v : Cli S} {c : Cfg} (h : SecureCfg v c) (s retry fail wb net n) :
    ∀ d, (clientSendTick c s retry fail wb net n).2 = some d → Spec.Covered v d.bytes := by
  intro d hd
  unfold clientSendTick at hd
  repeat' split at hd
  all_goals first | cases hd | skip
  rename_i he
  exact emit_covered h he

theorem recv_covered {S} {v : Cli S} {c : Cfg} (h : SecureCfg v c) (s dg io ok n) :
    ∀ d, (clientRecv c s dg io ok n).2 = some d → Spec.Covered v d.bytes := by
  intro d hd
  unfold clientRecv at hd
  split at hd
  · cases hd
  · split at hd
    · simp only at hd
      split at hd
      · cases hd
      · rename_i written index block _
        cases hA : ackDue c s.lastAck index written <;> cases hE : c.emit n (some index) (.ack (UInt16.ofNat block)) <;>
          cases ok <;> cases written <;> simp only [hA, hE] at hd <;>
          (try split at hd) <;> first | (simp at hd; done) | (exact emit_covered h hd) | skip
        all_goals (simp only [if_true, Option.some.injEq] at hd; first | (subst hd; exact emit_covered h hE) | exact emit_covered h hd)
    · cases hd
    · cases hd

theorem secure_step {S} (v : Cli S) (j : Job) (s : CliSt) (h : SecureSt v s) (i : CliIn) :
    SecureSt v (v.step j s i).1 ∧ ∀ x ∈ (v.step j s i).2, Spec.Covered v x.2 := by
  cases s with
  | query q => cases h
  | done r f => exact ⟨trivial, fun x hx => by cases hx⟩
  | up c room ep s since auth =>
    have ht := tick_covered (v := v) h s i.retry i.fail i.wb i.net i.nonce
    constructor
    · simp only [Cli.step, Cli.upStep]
      repeat' split
      all_goals first | exact trivial | exact h
    · have hout : (v.step j (.up c room ep s since auth) i).2 =
          ((clientSendTick c s i.retry i.fail i.wb i.net i.nonce).2.map (·.bytes)).toList.map (ep, ·) := by
        simp only [Cli.step, Cli.upStep]
        repeat' split
        all_goals rfl
      rw [hout]
      intro x hx
      simp only [List.mem_map, Option.mem_toList, Option.map_eq_some_iff] at hx
      obtain ⟨b, ⟨d, hd, rfl⟩, rfl⟩ := hx
      exact ht d hd
  | down c room ep s since auth =>
    constructor
    · simp only [Cli.step, Cli.downStep]
      repeat' split
      all_goals first | exact trivial | exact h
    · intro x hx
      have : ∃ dg d, (clientRecv c s dg i.file i.sendOk i.nonce).2 = some d ∧ x = (ep, d.bytes) := by
        simp only [Cli.step, Cli.downStep] at hx
        repeat' split at hx
        all_goals first | (cases hx; done) | skip
        all_goals
          simp only [List.mem_map, Option.mem_toList, Option.map_eq_some_iff] at hx
          obtain ⟨b, ⟨d, hd, rfl⟩, rfl⟩ := hx
          exact ⟨_, d, hd, rfl⟩
      obtain ⟨dg, d, hd, rfl⟩ := this
      exact recv_covered h s dg _ _ _ d hd

theorem secure_run {S} (v : Cli S) (j : Job) (s : CliSt) (h : SecureSt v s) (is : List CliIn) :
    ∀ x ∈ (v.runFrom j s is).2, Spec.Covered v x.2 := by
  induction is generalizing s with
  | nil => intro x hx; cases hx
  | cons i is ih =>
    obtain ⟨h1, h2⟩ := secure_step v j s h i
    intro x hx
    simp only [Cli.runFrom, List.mem_append] at hx
    rcases hx with hx | hx
    · exact h2 x hx
    · exact ih _ h1 x hx


/-! ### The handshake -/

/-- A socket which protects with a shared cipher at a mandatory level. -/
def SecureSock {S} (v : Cli S) (k : Sock) : Prop :=
  ∃ A, k.enc = some A ∧ Spec.Shared v A ∧ Spec.Mandatory k.level

theorem secure_cfgOf {S} {v : Cli S} {k : Sock} (h : SecureSock v k) (o : Opts) : SecureCfg v (v.cfgOf k o) := by
  obtain ⟨A, hA, hs, hl⟩ := h
  refine ⟨A, k.level, hs, hl, ?_⟩
  unfold Cli.cfgOf
  simp only [hA]

theorem initialSock_known {S} (v : Cli S) (o : Opts) (key : Bytes) (hk : v.cfg.remoteKey = some key) (hl : Spec.Mandatory o.level) :
    (v.initialSock o).1.enc = some (v.handshake key) ∧ (v.initialSock o).1.pub = v.handshakePub ∧
    ((v.initialSock o).1.level = .data ∨ (v.initialSock o).1.level = .full) := by
  unfold Cli.initialSock
  rcases hl with h | h | h <;> simp [h, hk]

theorem secure_configure {S} (v : Cli S) (o : Opts) (key : Bytes) (hk : v.cfg.remoteKey = some key) (hl : Spec.Mandatory o.level)
    (b : Bool) (o' : Opts) (rk : Option RemoteKeys) : SecureSock v (v.configure (v.initialSock o).1 b o' rk) := by
  obtain ⟨h1, h2, h3⟩ := initialSock_known v o key hk hl
  have h4 : Spec.Mandatory (v.initialSock o).1.level := by rcases h3 with h | h <;> rw [h] <;> simp [Spec.Mandatory]
  have hsh : Spec.Shared v (v.handshake key) := .inr ⟨key, hk, rfl⟩
  unfold Cli.configure
  split
  · simp only
    split
    · rename_i hlv
      refine ⟨_, rfl, .inl ⟨_, rfl⟩, ?_⟩
      show Spec.Mandatory o'.level
      rcases hlv with h | h | h <;> simp [Spec.Mandatory, h]
    · exact ⟨_, h1, hsh, h4⟩
  · exact ⟨_, h1, hsh, h4⟩

theorem put_covered {S} {v : Cli S} {o : Opts} {key : Bytes} (hk : v.cfg.remoteKey = some key) (hl : Spec.Mandatory o.level)
    {n ok p d} (h : v.put (v.initialSock o).1 n ok p = some d) : Spec.Covered v d := by
  obtain ⟨h1, h2, h3⟩ := initialSock_known v o key hk hl
  have hsh : Spec.Shared v (v.handshake key) := .inr ⟨key, hk, rfl⟩
  have hs : (v.initialSock o).1.send (v.nonce n) p.toBytes = .ok d := by
    unfold Cli.put at h
    split at h
    · rename_i x hx
      cases ok <;> simp at h
      rw [hx, h]
    · cases h
  unfold Sock.send at hs
  rcases h3 with h3 | h3 <;> simp only [h1, h3] at hs
  · split at hs
    · rename_i hp
      exact .inl ⟨_, _, _, hsh, v.nonce_length n, .inr (.inl ⟨hs, hp⟩)⟩
    · rename_i hp
      cases hs
      exact .inr hp
  · split at hs
    · rw [h2] at hs
      exact .inl ⟨_, _, _, hsh, v.nonce_length n, .inr (.inr ⟨_, hs⟩)⟩
    · exact .inl ⟨_, _, _, hsh, v.nonce_length n, .inl ⟨_, hs⟩⟩

theorem tooLarge_covered {S} {v : Cli S} {c : Cfg} (h : SecureCfg v c) (i ok) : ∀ d ∈ c.tooLarge i ok, Spec.Covered v d := by
  intro d hd
  unfold Cfg.tooLarge at hd
  split at hd
  · simp only [Option.mem_toList, Option.map_eq_some_iff] at hd
    obtain ⟨x, hx, rfl⟩ := hd
    exact emit_covered h hx
  · cases hd

theorem firstData_covered {S} {v : Cli S} {c : Cfg} (h : SecureCfg v c) (s b io ok n) :
    ∀ d ∈ (firstData c s b io ok n).2.1, Spec.Covered v d := by
  intro d hd
  unfold firstData at hd
  split at hd
  · split at hd
    · exact tooLarge_covered h _ _ d hd
    · simp only at hd
      split at hd
      · cases hd
      · split at hd
        · split at hd
          · rename_i he _
            split at hd <;> (simp only [List.mem_singleton] at hd; subst hd; exact emit_covered h ‹c.emit _ _ _ = some _›)
          · cases hd
        · split at hd <;> cases hd
  · cases hd

theorem accepted_secure {S} {v : Cli S} {j : Job} {ep ack o rk first i}
    (h : SecureSock v (v.configure (v.initialSock j.opts).1 (decide (j.opts.level ≠ Level.none)) o rk)) :
    SecureSt v (v.accepted j ep ack o rk first i).1 ∧ ∀ d ∈ (v.accepted j ep ack o rk first i).2, Spec.Covered v d := by
  have hc := secure_cfgOf h o
  have hack : ∀ out, (if ack then (if i.sendOk then ((v.cfgOf (v.configure (v.initialSock j.opts).1 (decide (j.opts.level ≠ Level.none)) o rk) o).emit
      i.nonce2 (some 0) (.ack 0)).map fun d => [d.bytes] else none) else some []) = some out → ∀ d ∈ out, Spec.Covered v d := by
    intro out ho d hd
    split at ho
    · split at ho
      · obtain ⟨x, hx, rfl⟩ := Option.map_eq_some_iff.mp ho
        simp only [List.mem_singleton] at hd
        subst hd
        exact emit_covered hc hx
      · cases ho
    · cases ho; cases hd
  have hfirst : ∀ d ∈ (match first with
      | some b => firstData (v.cfgOf (v.configure (v.initialSock j.opts).1 (decide (j.opts.level ≠ Level.none)) o rk) o) ⟨Writer.new, 0, 0, false, false⟩ b i.file i.sendOk i.nonce2
      | none => (⟨Writer.new, 0, 0, false, false⟩, [], none)).2.1, Spec.Covered v d := by
    intro d hd
    cases first with
    | none => cases hd
    | some b => exact firstData_covered hc _ _ _ _ _ d hd
  unfold Cli.accepted
  simp only
  split
  · split
    · exact ⟨trivial, fun d hd => by cases hd⟩
    · rename_i out ho
      exact ⟨hc, hack out ho⟩
  · split
    · exact ⟨trivial, fun d hd => by cases hd⟩
    · split
      · exact ⟨trivial, hfirst⟩
      · split
        · refine ⟨trivial, fun d hd => ?_⟩
          rcases List.mem_append.mp hd with hd | hd
          · exact hfirst d hd
          · exact tooLarge_covered hc _ _ d hd
        · split
          · exact ⟨trivial, hfirst⟩
          · rename_i out ho
            refine ⟨hc, fun d hd => ?_⟩
            rcases List.mem_append.mp hd with hd | hd
            · exact hfirst d hd
            · exact hack out ho d hd

theorem query_known {S} (v : Cli S) (j : Job) (key : Bytes) (hk : v.cfg.remoteKey = some key) (hl : Spec.Mandatory j.opts.level)
    (q : Query) (i : CliIn) :
    ((∃ q', (v.step j (.query q) i).1 = .query q') ∨ SecureSt v (v.step j (.query q) i).1) ∧
    ∀ x ∈ (v.step j (.query q) i).2, Spec.Covered v x.2 := by
  simp only [Cli.step, Cli.queryStep]
  split
  · exact ⟨.inr trivial, fun x hx => by cases hx⟩
  · rename_i req hreq
    have hout : ∀ x ∈ [(v.cfg.endpoint, req)], Spec.Covered v x.2 := by
      intro x hx
      simp only [List.mem_singleton] at hx
      subst hx
      exact put_covered hk hl hreq
    split
    · exact ⟨.inr trivial, hout⟩
    · split
      · exact ⟨.inr trivial, hout⟩
      · exact ⟨.inl ⟨_, rfl⟩, hout⟩
    · split
      · exact ⟨.inr trivial, hout⟩
      · split
        · exact ⟨.inl ⟨_, rfl⟩, hout⟩
        · split
          · exact ⟨.inr trivial, hout⟩
          · split
            · refine ⟨.inr trivial, fun x hx => ?_⟩
              rcases List.mem_append.mp hx with hx | hx
              · exact hout x hx
              · obtain ⟨b, hb, rfl⟩ := List.mem_map.mp hx
                obtain ⟨p, -, hp⟩ := List.mem_filterMap.mp hb
                exact put_covered hk hl hp
            · exact ⟨.inl ⟨_, rfl⟩, hout⟩
            · rename_i ack o' rk first _
              obtain ⟨h1, h2⟩ := accepted_secure (ep := by assumption) (ack := ack) (first := first) (i := i)
                (secure_configure v j.opts key hk hl (j.opts.level ≠ .none) o' rk)
              refine ⟨.inr h1, fun x hx => ?_⟩
              rcases List.mem_append.mp hx with hx | hx
              · exact hout x hx
              · obtain ⟨b, hb, rfl⟩ := List.mem_map.mp hx
                exact h2 b hb

/-- **C25** (partial): a user who knows the server's key and asks for `data`, `protocol` or `full` never sends file data in the
clear: whatever the server, or anybody else, answers, at any time, every datagram of the client is an encryption under the key of
the handshake or of the session, or is not a data packet. Missing: users who do not know the key (`c25_oack_partial`,
`c25_plain_answer_downgrades`), and the level itself (`c25_protocol_becomes_data`). -/
theorem c25_known_key_partial {S} (v : Cli S) (j : Job) (key : Bytes) (hk : v.cfg.remoteKey = some key)
    (hl : Spec.Mandatory j.opts.level) (t : Nat) (is : List CliIn) : ∀ x ∈ (v.run j t is).2, Spec.Covered v x.2 := by
  unfold Cli.run
  generalize v.start j t = q
  induction is generalizing q with
  | nil => intro x hx; cases hx
  | cons i is ih =>
    obtain ⟨h1, h2⟩ := query_known v j key hk hl q i
    intro x hx
    simp only [Cli.runFrom, List.mem_append] at hx
    rcases hx with hx | hx
    · exact h2 x hx
    · rcases h1 with ⟨q', h1⟩ | h1
      · rw [h1] at hx
        exact ih q' x hx
      · exact secure_run v j _ h1 is x hx

/-! ### An unknown server key -/

theorem initialSock_unknown {S} (v : Cli S) (o : Opts) (hk : v.cfg.remoteKey = none) :
    v.initialSock o = (⟨none, .none, [], o.blockSize⟩, o) := by
  unfold Cli.initialSock
  split
  · rfl
  · rw [hk]

theorem requestOpts_level {S} (v : Cli S) (j : Job) (hk : v.cfg.remoteKey = none) : (v.requestOpts j).level = j.opts.level := by
  unfold Cli.requestOpts
  rw [initialSock_unknown v _ hk]
  simp only
  split
  · split <;> rfl
  · rfl

theorem put_unknown {S} (v : Cli S) (o : Opts) (hk : v.cfg.remoteKey = none) (n : Nat) (ok : Bool) (p : Packet) :
    v.put (v.initialSock o).1 n ok p = if ok then some p.toBytes else none := by
  unfold Cli.put Sock.send
  rw [initialSock_unknown v _ hk]

theorem recv_unknown {S} (v : Cli S) (o : Opts) (hk : v.cfg.remoteKey = none) (b : Bytes) : (v.initialSock o).1.recv b = some b := by
  unfold Sock.recv
  rw [initialSock_unknown v _ hk]

theorem cliNumbers_level {se : Exts} {o o' : Opts} (h : cliNumbers se o = .ok o') : o'.level = o.level := (cliNumbers_ok h).2.2.2.2

theorem not_data_type (p : Packet) (h : ∀ b x, p ≠ .data b x) : packetType p.toBytes ≠ some .data := by
  cases p with
  | data b x => exact absurd rfl (h b x)
  | read r => simp [packetType, Packet.toBytes, be16, readU16, PacketType.repr]; decide
  | write r => simp [packetType, Packet.toBytes, be16, readU16, PacketType.repr]; decide
  | ack r => simp [packetType, Packet.toBytes, be16, readU16, PacketType.repr]; decide
  | error r m => simp [packetType, Packet.toBytes, be16, readU16, PacketType.repr]; decide
  | optionalAck r => simp [packetType, Packet.toBytes, be16, readU16, PacketType.repr]; decide

/-- An accepted option acknowledgement of a server whose key is unknown establishes a session. -/
theorem cliOack_mandatory {S} {hasKey known used o se o' rk out} (h : cliOack S hasKey known used o se = (.ok (o', rk), out))
    (hl : o.level = .data ∨ o.level = .protocol) : (o'.level = .data ∨ o'.level = .protocol) ∧ rk.isSome = true := by
  unfold cliOack at h
  split at h
  · split at h
    · cases h
    · rename_i o1 rk1 hp
      split at h
      · cases h
      · cases h
        unfold cliParse at hp
        split at hp
        · cases hp
        · rename_i o2 hn
          have hl2 : o2.level = .data ∨ o2.level = .protocol := by rw [cliNumbers_level hn]; exact hl
          rw [if_neg (by rcases hl2 with h | h <;> simp [h])] at hp
          split at hp
          · cases hp
          · rw [if_neg (by rcases hl2 with h | h <;> simp [h])] at hp
            split at hp
            · cases hp
            · rename_i hrep
              have hrep := Classical.not_not.mp fun hx => hrep ⟨hl2, hx⟩
              repeat' split at hp
              all_goals first | cases hp | skip
              refine ⟨?_, rfl⟩
              rcases hrep with h | h <;> cases h <;> simp
  · cases h

/-- An option acknowledgement leads to a protected session, or to the end. -/
theorem oack_secure {S} (v : Cli S) (j : Job) (hk : v.cfg.remoteKey = none) (hl : j.opts.level = .data ∨ j.opts.level = .protocol)
    (q : Query) (i : CliIn) (d : Bytes) (se : Exts) (hr : i.recv = .dgram v.cfg.endpoint d)
    (hp : Packet.fromBytes (d.take q.room) = .ok (.optionalAck se)) :
    SecureSt v (v.step j (.query q) i).1 ∧ ∀ x ∈ (v.step j (.query q) i).2, Spec.Covered v x.2 := by
  have hreq : ∀ e, packetType (j.request e).toBytes ≠ some .data := by
    intro e
    refine not_data_type _ fun b x => ?_
    unfold Job.request
    split <;> simp
  simp only [Cli.step, Cli.queryStep, put_unknown v _ hk, recv_unknown v _ hk, hr]
  cases i.sendOk with
  | false => exact ⟨trivial, fun x hx => by cases hx⟩
  | true =>
    simp only [if_true, ne_eq, not_true_eq_false, if_false, false_and]
    have hout : ∀ x ∈ [(v.cfg.endpoint, (j.request q.exts).toBytes)], Spec.Covered v x.2 := by
      intro x hx
      simp only [List.mem_singleton] at hx
      subst hx
      exact .inr (hreq _)
    simp only [Cli.reply, hp]
    cases h : cliOack S v.cfg.privateKey.isSome v.cfg.remoteKey q.used (v.requestOpts j) se with
    | mk r out =>
      cases r with
      | error e =>
        refine ⟨trivial, fun x hx => ?_⟩
        rcases List.mem_append.mp hx with hx | hx
        · exact hout x hx
        · obtain ⟨b, hb, rfl⟩ := List.mem_map.mp hx
          obtain ⟨p, hp1, hp2⟩ := List.mem_filterMap.mp hb
          rw [put_unknown v _ hk] at hp2
          cases hp2
          refine .inr (not_data_type _ fun b x hx => ?_)
          subst hx
          unfold cliOack at h
          repeat' split at h
          all_goals cases h
          all_goals simp at hp1
      | ok a =>
        obtain ⟨o', rk⟩ := a
        obtain ⟨h1, h2⟩ := cliOack_mandatory h (by rw [requestOpts_level v j hk]; exact hl)
        obtain ⟨rk, rfl⟩ := Option.isSome_iff_exists.mp h2
        have hsec : SecureSock v (v.configure (v.initialSock j.opts).1 (decide (j.opts.level ≠ Level.none)) o' (some rk)) := by
          have hd : decide (j.opts.level ≠ Level.none) = true := by rcases hl with h | h <;> simp [h]
          unfold Cli.configure
          simp only [hd]
          rw [if_pos (by rcases h1 with h | h <;> simp [h])]
          exact ⟨_, rfl, .inl ⟨_, rfl⟩, by rcases h1 with h | h <;> simp [h, Spec.Mandatory]⟩
        obtain ⟨h3, h4⟩ := accepted_secure (ep := v.cfg.endpoint) (ack := true) (first := none) (i := i) hsec
        refine ⟨h3, fun x hx => ?_⟩
        rcases List.mem_append.mp hx with hx | hx
        · exact hout x hx
        · obtain ⟨b, hb, rfl⟩ := List.mem_map.mp hx
          exact h4 b hb

/-- **C25** (partial): a user who does not know the server's key and asks for `data` or `protocol`: once the server's answer is an
option acknowledgement (accepted or not), no file data leaves in the clear, whatever arrives later. Missing: answers which are not
option acknowledgements (`c25_plain_answer_downgrades`), level `full` (`c25_full_without_key_downgrades`). -/
theorem c25_oack_partial {S} (v : Cli S) (j : Job) (hk : v.cfg.remoteKey = none) (hl : j.opts.level = .data ∨ j.opts.level = .protocol)
    (q : Query) (i : CliIn) (d : Bytes) (se : Exts) (hr : i.recv = .dgram v.cfg.endpoint d)
    (hp : Packet.fromBytes (d.take q.room) = .ok (.optionalAck se)) (is : List CliIn) :
    ∀ x ∈ (v.runFrom j (.query q) (i :: is)).2, Spec.Covered v x.2 := by
  have key := oack_secure v j hk hl q i d se hr hp
  intro x hx
  simp only [Cli.runFrom, List.mem_append] at hx
  rcases hx with hx | hx
  · exact key.2 x hx
  · exact secure_run v j _ key.1 is x hx

theorem packetType_of_data {b : Bytes} {blk data} (h : Packet.fromBytes b = .ok (.data blk data)) : packetType b = some .data := by
  unfold Packet.fromBytes at h
  unfold packetType
  cases hr : readU16 b with
  | none => rw [hr] at h; cases h
  | some op =>
    simp only [hr] at h
    simp only [Option.bind_some]
    cases ho : PacketType.ofRepr op.toNat with
    | none => rw [ho] at h; cases h
    | some t =>
      simp only [ho] at h
      cases t with
      | data => rfl
      | read => simp only at h; cases hq : Request.fromBytes (b.drop 2) <;> simp [hq, Except.map] at h
      | write => simp only at h; cases hq : Request.fromBytes (b.drop 2) <;> simp [hq, Except.map] at h
      | ack => simp only at h; split at h <;> cases h
      | error => simp only [errorFromBytes] at h; repeat' split at h
                 all_goals cases h
      | optionalAck => simp only at h; cases hq : Exts.fromBytes (b.drop 2) <;> simp [hq, Except.map] at h

/-- **C25**: in a session protected at a mandatory level, what is written to the file comes from a datagram of the server which
decrypted under a shared cipher: the file only changes with a datagram from the server's address, which (whole, or at level
`data` its payload) decrypts with a shared cipher to the data packet. -/
theorem c25_only_decrypted_data_is_written {S} (v : Cli S) (j : Job) (c : Cfg) (room : Nat) (ep : Ep) (s : RecvSt) (since : Nat)
    (auth : Option Bytes) (h : SecureSt v (.down c room ep s since auth)) (i : CliIn) :
    (∃ c' room' ep' s' since' auth', (v.step j (.down c room ep s since auth) i).1 = .down c' room' ep' s' since' auth' ∧ s'.w.out = s.w.out) ∨
    (∃ r, (v.step j (.down c room ep s since auth) i).1 = .done r s.w.out) ∨
    ∃ d A, i.recv = .dgram ep d ∧ Spec.Shared v A ∧
      ((∃ p, openPacket A (d.take room) = .ok p ∧ packetType p = some .data) ∨
       (packetType (d.take room) = some .data ∧ ∃ p, openData A (d.take room) = .ok p)) := by
  obtain ⟨A, l, hA, hl, hc⟩ := h
  simp only [Cli.step, Cli.downStep]
  cases hr : i.recv with
  | error => exact .inr (.inl ⟨_, rfl⟩)
  | wouldBlock =>
    simp only
    split
    · exact .inr (.inl ⟨_, rfl⟩)
    · exact .inl ⟨_, _, _, _, _, _, rfl, rfl⟩
  | dgram src d =>
    simp only
    split
    · exact .inr (.inl ⟨_, rfl⟩)
    · split
      · exact .inl ⟨_, _, _, _, _, _, rfl, rfl⟩
      · rename_i hdec hsrc
        have hsrc : src = ep := Classical.not_not.mp hsrc
        subst hsrc
        cases hd : c.codec.dec (d.take room) with
        | none => exact absurd (by rw [hd]; rfl) hdec
        | some b =>
          by_cases hdata : packetType b = some .data
          · refine .inr (.inr ⟨d, A, rfl, hA, ?_⟩)
            rw [hc] at hd
            simp only [Codec.level] at hd
            split at hd
            · rename_i b' hb
              cases hd
              rcases hl with rfl | rfl | rfl
              · simp only [unprotect] at hb
                split at hb
                · rename_i ht
                  exact .inr ⟨ht, _, hb⟩
                · cases hb
                  rename_i ht
                  exact absurd hdata ht
              · exact .inl ⟨_, hb, hdata⟩
              · exact .inl ⟨_, hb, hdata⟩
            · cases hd
          · have hw : (clientRecv c s (d.take room) i.file i.sendOk i.nonce).1.w = s.w := by
              unfold clientRecv
              simp only [hd]
              split
              · rename_i blk data hp
                exact absurd (packetType_of_data hp) hdata
              · rfl
              · rfl
            split
            · exact .inr (.inl ⟨_, by rw [hw]⟩)
            · split
              · exact .inr (.inl ⟨_, by rw [hw]⟩)
              · exact .inl ⟨_, _, _, _, _, _, rfl, by rw [hw]⟩

/-- **C25**, finding: without knowledge of the server's key, any mandatory level is dropped if the server answers a write request
with a plain acknowledgement: the transfer then runs without encryption. (src/client/connection.rs:128-137 does not look at the
level.) -/
theorem c25_plain_answer_downgrades {S} (v : Cli S) (j : Job) (hk : v.cfg.remoteKey = none) (size : Option Nat) (file : Bytes)
    (ht : j.task = .upload size file) (q : Query) (i : CliIn) (blk : UInt16) (hroom : 4 ≤ q.room)
    (hr : i.recv = .dgram v.cfg.endpoint (Packet.ack blk).toBytes) (hok : i.sendOk = true) :
    ∃ c room s, (v.step j (.query q) i).1 = .up c room v.cfg.endpoint s i.t none ∧ s.reader = Reader.new (v.kind j.opts.window) file c.bs j.opts.window ∧
      (∀ n b, c.codec.enc n b = some b) ∧ ∀ b, c.codec.dec b = some b := by
  have hw : j.write = true := by unfold Job.write; rw [ht]
  have hparse : Packet.fromBytes (Packet.ack blk).toBytes = .ok (.ack blk) := c01_round_trip (.ack blk) trivial
  have hlen : (Packet.ack blk).toBytes.take q.room = (Packet.ack blk).toBytes := List.take_of_length_le (by
    have : (Packet.ack blk).toBytes.length = 4 := rfl
    omega)
  have hwin : (cliPlain (v.requestOpts j)).window = j.opts.window := by
    simp only [cliPlain, Cli.requestOpts, initialSock_unknown v _ hk, ht]
    split
    · split <;> rfl
    · rfl
  have hcfg : v.configure (v.initialSock j.opts).1 (decide (j.opts.level ≠ Level.none)) (cliPlain (v.requestOpts j)) none =
      ⟨none, .none, [], (cliPlain (v.requestOpts j)).payload⟩ := by
    unfold Cli.configure
    rw [initialSock_unknown v _ hk]
    cases decide (j.opts.level ≠ Level.none) <;> rfl
  refine ⟨v.cfgOf ⟨none, .none, [], (cliPlain (v.requestOpts j)).payload⟩ (cliPlain (v.requestOpts j)),
    recvBuffer (cliPlain (v.requestOpts j)).blockSize, ⟨Reader.new (v.kind j.opts.window) file (cliPlain (v.requestOpts j)).payload j.opts.window, 0, false, false⟩, ?_, rfl, fun _ _ => rfl, fun _ => rfl⟩
  simp only [Cli.step, Cli.queryStep, put_unknown v _ hk, recv_unknown v _ hk, hr, hok, if_true, ne_eq, not_true_eq_false, if_false, false_and,
    Cli.reply, hlen, hparse, hw, Cli.accepted, hcfg, ht, hwin]
  rfl

end Tftp

import Verif.NegotiateProps
import Verif.KeyFiles
/-
C18: client and server agree on the negotiated options. C24: required encryption.
-/
namespace Tftp

/-! ### The options of a request -/

/-- The options of a request, one by one. -/
def Spec.request {S : SigScheme} (co : Opts) (keys : InitialKeys S) : Exts
  | .blockSize => if co.blockSize = 512 then none else some (decimal co.blockSize)
  | .windowSize => if co.window = 1 then none else some (decimal co.window)
  | .timeout => if co.retry = 80 ∨ co.retry / 1000 = 0 then none else some (decimal (co.retry / 1000))
  | .transferSize => co.fileSize.map decimal
  | .encryptionLevel => if co.level = .none then none else some co.level.text
  | .sessionPublicKey => if co.level = .none then none else some (encodeKey keys.sessionPub)
  | .authPublicKey => if co.level = .none then none else keys.auth.map (encodeKey ·.pub)
  | .signature => if co.level = .none then none else keys.auth.map fun a => encodeKey (a.sign keys.sessionPub)

theorem createExtensions_eq {S : SigScheme} (co : Opts) (keys : InitialKeys S) :
    createExtensions co keys = Spec.request co keys := by
  obtain ⟨b, r, f, l, w⟩ := co
  obtain ⟨s, a⟩ := keys
  funext e
  unfold createExtensions Spec.request
  by_cases hb : b = 512 <;> by_cases hw : w = 1 <;> by_cases hr : r = 80 ∨ r / 1000 = 0 <;> by_cases hl : l = .none <;>
    cases f <;> cases a <;>
    (try rw [if_pos (show r ≠ 80 ∧ r / 1000 ≥ 1 by omega)]) <;>
    (try rw [if_neg (show ¬ (r ≠ 80 ∧ r / 1000 ≥ 1) by omega)]) <;>
    simp only [hb, hw, hl, hr, ne_eq, not_true_eq_false, not_false_eq_true, if_true, if_false, Option.map] <;>
    cases e <;> rfl

theorem validateExtensions_of {S : SigScheme} {cfg : SrvCfg S} (hb : 512 ≤ cfg.maxBlock) (hw : 1 ≤ cfg.maxWindow)
    {session : Bytes} {handshake : Level} {ce : Exts} {kind : ReqKind} {u : Exts} {o : Opts} {k : Option SessionKeys}
    (h : srvNegotiate cfg session handshake ce kind = .ok (u, o, k)) : validateExtensions u ce = true :=
  (validateExtensions_iff u ce).mpr (c16_server_limits cfg hb hw session handshake ce kind u o k h).2.2.2.1

theorem levelText_parse (l : Level) : Level.parse l.text = some l := (c44_level_text _ _).mpr rfl

/-- What the client's key check sees in the server's reply. -/
theorem checkAuth_reply {S : SigScheme} (cfg : SrvCfg S) (session : Bytes) (auth : Option Bytes) (u : Exts)
    (hu : u .authPublicKey = none) :
    checkAuth S (srvKeys cfg session auth u) session =
      .ok (if auth.isSome then cfg.privateKey.map (·.pub) else none) := by
  cases hp : cfg.privateKey with
  | none =>
    cases auth <;> simp [srvKeys, hp, checkAuth, Exts.insert, hu, optParse]
  | some a =>
    cases auth with
    | none => simp [srvKeys, hp, checkAuth, Exts.insert, hu, optParse]
    | some x =>
      have h1 := c33_round_trip.2.2.1 S.point a.pub a.pub_length a.pub_point
      have h2 := c33_round_trip.2.2.2 (a.sign session) (a.sign_length session)
      simp [srvKeys, hp, checkAuth, Exts.insert, optParse, h1, h2, a.sign_ok]

theorem srvKeys_session {S : SigScheme} (cfg : SrvCfg S) (session : Bytes) (auth : Option Bytes) (u : Exts) :
    srvKeys cfg session auth u .sessionPublicKey = some (encodeKey session) := by
  unfold srvKeys
  cases cfg.privateKey <;> cases auth <;> simp [Exts.insert]

/-- The client's own request as seen by the server: the authorization key found in it is the client's. -/
theorem checkAuth_request {S : SigScheme} (co : Opts) (keys : InitialKeys S) (hl : co.level ≠ .none) :
    checkAuth S (createExtensions co keys) keys.sessionPub = .ok (keys.auth.map (·.pub)) := by
  rw [createExtensions_eq]
  unfold checkAuth Spec.request
  simp only [if_neg hl]
  cases ha : keys.auth with
  | none => rfl
  | some a =>
    have h1 := c33_round_trip.2.2.1 S.point a.pub a.pub_length a.pub_point
    have h2 := c33_round_trip.2.2.2 (a.sign keys.sessionPub) (a.sign_length keys.sessionPub)
    simp [optParse, h1, h2, a.sign_ok]

/-- The numeric part of **C18**. -/
theorem cliNumbers_agree {S : SigScheme} (cfg : SrvCfg S) (hb : 512 ≤ cfg.maxBlock ∧ cfg.maxBlock ≤ 65535)
    (hw : 1 ≤ cfg.maxWindow ∧ cfg.maxWindow ≤ 65535) (co : Opts) (keys : InitialKeys S)
    (hco : co.blockSize ≤ 65535 ∧ co.window ≤ 65535 ∧ ∀ s, co.fileSize = some s → s < 2 ^ 64)
    (u u1 : Exts) (o1 : Opts) (lvl : Level) (hN : Numbers cfg (createExtensions co keys) u1 o1 lvl)
    (hub : u .blockSize = u1 .blockSize) (huw : u .windowSize = u1 .windowSize) (hut : u .timeout = u1 .timeout)
    (hus : u .transferSize = none ∨ ∃ s, s < 2 ^ 64 ∧ u .transferSize = some (decimal s) ∧
      (co.fileSize = none ∨ co.fileSize = some 0 ∨ co.fileSize = some s)) :
    cliNumbers u co = .ok ⟨o1.blockSize, o1.retry,
      match u .transferSize with
      | none => co.fileSize
      | some t => parseUInt (2 ^ 64 - 1) t, co.level, o1.window⟩ := by
  have rb : ∀ n, Spec.requested (createExtensions co keys) .blockSize 65535 = some n → n = co.blockSize := by
    intro n hn
    rw [createExtensions_eq] at hn
    simp only [Spec.requested, Spec.request] at hn
    split at hn
    · cases hn
    · simp only [Option.bind_some, parse_decimal 65535 _ hco.1, Option.some.injEq] at hn; exact hn.symm
  have rw' : ∀ n, Spec.requested (createExtensions co keys) .windowSize 65535 = some n → n = co.window := by
    intro n hn
    rw [createExtensions_eq] at hn
    simp only [Spec.requested, Spec.request] at hn
    split at hn
    · cases hn
    · simp only [Option.bind_some, parse_decimal 65535 _ hco.2.1, Option.some.injEq] at hn; exact hn.symm
  have e1 : cliBlock u co = .ok { co with blockSize := o1.blockSize } := by
    unfold cliBlock
    rcases hN.block with ⟨h1, h2, -⟩ | ⟨n, h1, h2, h3, h4⟩
    · rw [hub, h1, h2]
    · have := rb n h1
      subst this
      rw [hub, h4]
      have hpd := parse_decimal 65535 (min co.blockSize cfg.maxBlock) (by omega)
      simp only [hpd, Option.getD_some]
      rw [if_pos (by omega), h3]
  have e2 : cliWindow u { co with blockSize := o1.blockSize } =
      .ok { co with blockSize := o1.blockSize, window := o1.window } := by
    unfold cliWindow
    rcases hN.window with ⟨h1, h2, -⟩ | ⟨n, h1, h2, h3, h4⟩
    · rw [huw, h1, h2]
    · have := rw' n h1
      subst this
      rw [huw, h4]
      have hpd := parse_decimal 65535 (min co.window cfg.maxWindow) (by omega)
      simp only [hpd, Option.getD_some]
      rw [if_pos (by omega), h3]
  have e3 : cliTimeout u { co with blockSize := o1.blockSize, window := o1.window } =
      .ok { co with blockSize := o1.blockSize, window := o1.window, retry := o1.retry } := by
    unfold cliTimeout
    rcases hN.timeout with ⟨h1, h2, -⟩ | ⟨n, h1, h2, h3, h4, h5⟩
    · rw [hut, h1, h2]
    · have : n ≤ 255 := by
        obtain ⟨t, -, ht⟩ := Option.bind_eq_some_iff.mp h1
        exact parseUInt_le _ _ _ ht
      rw [hut, h5]
      simp only [parse_decimal 255 _ this, Option.getD_some]
      rw [if_pos (by omega), h4]
  unfold cliNumbers
  rw [e1]
  simp only
  rw [e2]
  simp only
  rw [e3]
  simp only
  unfold cliSize
  rcases hus with h | ⟨s, hs, h, hc⟩
  · rw [h]
  · rw [h]
    simp only [parse_decimal (2 ^ 64 - 1) s (by omega), Option.getD_some]
    rcases hc with hc | hc | hc
    · rw [if_pos (.inl hc)]
    · rw [if_pos (.inr hc)]
    · by_cases h0 : co.fileSize = none ∨ co.fileSize = some 0
      · rw [if_pos h0]
      · rw [if_neg h0, if_neg (by simp [hc]), hc]

/-- **C18**: whatever options `co` a client asks for (`createExtensions co keys`), however the server is
configured and whichever way the request travelled: if the server accepts the request, then
* the option acknowledgement with the options it confirms is accepted by the client without any error packet, and
  afterwards both sides use the same block size, window, retransmission timeout and encryption level; they have each
  other's session keys, or none; and of a file which is read with `tsize` requested the client gets to know the size (0 if the
  server does not know it), otherwise nothing;
* if there is nothing to confirm (no option acknowledgement is sent) both sides use the same block size, window and
  encryption level too.
`known` is the key the client has pinned for the server; the server must own it. -/
theorem c18_agreement {S : SigScheme} (cfg : SrvCfg S) (hb : 512 ≤ cfg.maxBlock ∧ cfg.maxBlock ≤ 65535)
    (hw : 1 ≤ cfg.maxWindow ∧ cfg.maxWindow ≤ 65535) (co : Opts) (keys : InitialKeys S)
    (hkey : keys.sessionPub.length = 32) (session : Bytes) (hses : session.length = 32)
    (hco : co.blockSize ≤ 65535 ∧ 1 ≤ co.window ∧ co.window ≤ 65535 ∧ ∀ s, co.fileSize = some s → s < 2 ^ 64)
    (known : Option Bytes) (hknown : ∀ p, known = some p → ∃ a, cfg.privateKey = some a ∧ a.pub = p)
    (handshake : Level) (hh : handshake = .full ∧ co.level = .full ∨ handshake = .none)
    (kind : ReqKind) (hkind : ∀ a, kind = .read a →
      (co.fileSize = none ∨ co.fileSize = some 0) ∧ ∀ s, a = some s → s < 2 ^ 64)
    (u : Exts) (o : Opts) (k : Option SessionKeys)
    (h : srvNegotiate cfg session handshake (createExtensions co keys) kind = .ok (u, o, k)) :
    (∃ co' rk, cliOack S keys.auth.isSome known (createExtensions co keys) co u = (.ok (co', rk), []) ∧
      co'.blockSize = o.blockSize ∧ co'.window = o.window ∧ co'.retry = o.retry ∧ co'.level = o.level ∧
      (co.level = .none ∧ k = none ∧ rk = none ∨
        ∃ auth, k = some ⟨session, keys.sessionPub⟩ ∧ rk = some ⟨auth, session⟩) ∧
      (∀ a, kind = .read a → co'.fileSize = if co.fileSize = none then none else some (a.getD 0))) ∧
    ((∀ e, u e = none) → (cliPlain co).blockSize = o.blockSize ∧ (cliPlain co).window = o.window ∧
      (cliPlain co).level = o.level ∧ k = none) := by
  have hval := validateExtensions_of hb.1 hw.1 h
  obtain ⟨u0, o0, hp, -, hk⟩ := srvNegotiate_ok h
  obtain ⟨u1, o1, cl, hN, hcl, -, hcase⟩ := srvParse_ok hp
  have hreqlvl : cl = if co.level = .none then none else some co.level := by
    rw [createExtensions_eq] at hcl
    simp only [Spec.request] at hcl
    split at hcl
    · rename_i h0
      rw [if_pos h0]
      simpa [optParse] using hcl.symm
    · rename_i h0
      rw [if_neg h0]
      simpa [optParse, levelText_parse] using hcl.symm
  have hu0 : ∀ e, e ≠ .sessionPublicKey → e ≠ .authPublicKey → e ≠ .signature → e ≠ .encryptionLevel →
      u0 e = u1 e := by
    intro e h1 h2 h3 h4
    rcases hcase with ⟨-, -, rfl, -, -⟩ | ⟨l, remote, auth, -, -, -, -, -, -, rfl, -, -⟩
    · rfl
    · rw [srvKeys_other _ _ _ _ _ ⟨h1, h2, h3⟩]; simp [Exts.insert, h4]
  have hu : ∀ e, e ≠ .transferSize → u e = u0 e := by
    intro e he
    rcases hk with ⟨-, rfl, -⟩ | ⟨a, -, rfl, -⟩
    · rfl
    · exact srvReadSize_other _ _ _ _ he
  have hub : u .blockSize = u1 .blockSize := by rw [hu _ (by simp), hu0 _ (by simp) (by simp) (by simp) (by simp)]
  have huw : u .windowSize = u1 .windowSize := by rw [hu _ (by simp), hu0 _ (by simp) (by simp) (by simp) (by simp)]
  have hut : u .timeout = u1 .timeout := by rw [hu _ (by simp), hu0 _ (by simp) (by simp) (by simp) (by simp)]
  have hsz1 : u1 .transferSize = co.fileSize.map decimal := by
    have hreq : Spec.requested (createExtensions co keys) .transferSize (2 ^ 64 - 1) = co.fileSize := by
      rw [createExtensions_eq]
      simp only [Spec.requested, Spec.request]
      cases hf : co.fileSize with
      | none => rfl
      | some s =>
        have := hco.2.2.2 s hf
        simp only [Option.map_some, Option.bind_some]
        exact parse_decimal _ _ (by omega)
    rcases hN.size with ⟨Z1, -, Z2⟩ | ⟨n, Z1, -, Z2⟩
    · rw [hreq] at Z2; rw [Z1, Z2]; rfl
    · rw [hreq] at Z1; rw [Z1, Z2]; rfl
  have husz : u0 .transferSize = co.fileSize.map decimal := by
    rw [hu0 _ (by simp) (by simp) (by simp) (by simp), hsz1]
  have hus : u .transferSize = none ∨ ∃ s, s < 2 ^ 64 ∧ u .transferSize = some (decimal s) ∧
      (co.fileSize = none ∨ co.fileSize = some 0 ∨ co.fileSize = some s) := by
    rcases hk with ⟨-, rfl, -⟩ | ⟨a, hr, rfl, -⟩
    · rw [husz]
      cases hf : co.fileSize with
      | none => exact .inl rfl
      | some s => exact .inr ⟨s, hco.2.2.2 s hf, rfl, .inr (.inr rfl)⟩
    · obtain ⟨h1, h2⟩ := hkind a hr
      unfold srvReadSize
      rcases h1 with h1 | h1
      · rw [h1] at husz
        left
        cases a <;> simp [husz]
      · rw [h1] at husz
        cases a with
        | none => simp [husz, Exts.remove]
        | some s =>
          simp only [husz, Option.map_some]
          split
          · exact .inr ⟨s, h2 s rfl, by simp [Exts.insert], .inr (.inl h1)⟩
          · exact .inr ⟨0, by decide, husz, .inr (.inl h1)⟩
  have hnum := cliNumbers_agree cfg hb hw co keys ⟨hco.1, hco.2.2.1, hco.2.2.2⟩ u u1 o1 handshake hN hub huw hut hus
  have ho : o.blockSize = o1.blockSize ∧ o.window = o1.window ∧ o.retry = o1.retry := by
    have ho0 : o0.blockSize = o1.blockSize ∧ o0.window = o1.window ∧ o0.retry = o1.retry := by
      rcases hcase with ⟨-, -, -, rfl, -⟩ | ⟨l, remote, auth, -, -, -, -, -, -, -, rfl, -⟩ <;> exact ⟨rfl, rfl, rfl⟩
    rcases hk with ⟨-, -, rfl⟩ | ⟨a, -, -, rfl⟩ <;> exact ho0
  have holvl : o.level = o0.level := by rcases hk with ⟨-, -, rfl⟩ | ⟨a, -, -, rfl⟩ <;> rfl
  -- the size announced by the server
  have hfs : ∀ a, kind = .read a →
      (match u .transferSize with
        | none => co.fileSize
        | some t => parseUInt (2 ^ 64 - 1) t) = if co.fileSize = none then none else some (a.getD 0) := by
    intro a hr
    rcases hk with ⟨hr', -⟩ | ⟨a', hr', rfl, -⟩
    · rw [hr] at hr'; cases hr'
    · rw [hr] at hr'; cases hr'
      obtain ⟨h1, h2⟩ := hkind a hr
      unfold srvReadSize
      rcases h1 with h1 | h1
      · rw [h1] at husz
        cases a <;> simp [husz, h1]
      · rw [h1] at husz
        simp only [h1, reduceCtorEq, if_false]
        cases a with
        | none => simp [husz, Exts.remove]
        | some s =>
          have := h2 s rfl
          simp only [husz, Option.map_some, Option.getD_some]
          by_cases hp : s > 0
          · simp only [if_pos hp, Exts.insert, if_true]
            exact parse_decimal _ _ (by omega)
          · have : s = 0 := by omega
            subst this
            simp only [if_neg hp, husz, Option.map_some]
            exact parse_decimal _ _ (by omega)
  obtain ⟨fs, hnum, hfs⟩ : ∃ fs, cliNumbers u co = .ok ⟨o1.blockSize, o1.retry, fs, co.level, o1.window⟩ ∧
      ∀ a, kind = .read a → fs = if co.fileSize = none then none else some (a.getD 0) := ⟨_, hnum, hfs⟩
  rcases hcase with ⟨hnone, -, rfl, rfl, rfl⟩ | ⟨l, remote, auth, hl, hlne, hlfull, hrem, hauth, -, hueq, rfl, rfl⟩
  · -- no encryption requested
    have hl : co.level = .none := by
      rw [hreqlvl] at hnone
      by_cases h0 : co.level = .none
      · exact h0
      · rw [if_neg h0] at hnone; exact absurd hnone h0
    have hlvl : o.level = .none := by
      rw [holvl, hN.level]
      rcases hh with ⟨-, hh⟩ | hh
      · rw [hl] at hh; cases hh
      · exact hh
    refine ⟨⟨⟨o0.blockSize, o0.retry, fs, co.level, o0.window⟩, none, ?_, ho.1.symm, ho.2.1.symm, ho.2.2.symm, ?_, .inl ⟨hl, rfl, rfl⟩, fun a b => hfs a b⟩, ?_⟩
    · unfold cliOack
      rw [if_pos hval]
      unfold cliParse
      rw [hnum]
      simp only
      rw [if_pos hl]
      simp only
      rw [if_neg (by simp [hl])]
    · simp only; rw [hl, hlvl]
    · intro he
      refine ⟨?_, ?_, ?_, rfl⟩
      · rw [ho.1]
        rcases hN.block with ⟨-, h2, -⟩ | ⟨n, -, -, -, h4⟩
        · rw [h2]; rfl
        · have := he .blockSize
          rw [hub, h4] at this; cases this
      · rw [ho.2.1]
        rcases hN.window with ⟨-, h2, h3⟩ | ⟨n, -, -, -, h4⟩
        · rw [h2]
          show co.window = 1
          by_cases h1 : co.window = 1
          · exact h1
          · have := h3 co.window (by
              rw [createExtensions_eq]
              simp only [Spec.requested, Spec.request]
              rw [if_neg h1]
              exact parse_decimal _ _ hco.2.2.1)
            omega
        · have := he .windowSize
          rw [huw, h4] at this; cases this
      · rw [hlvl]; exact hl
  · -- encryption requested
    have hlv : co.level ≠ .none ∧ l = co.level := by
      rw [hreqlvl] at hl
      by_cases h0 : co.level = .none
      · rw [if_pos h0] at hl; cases hl
      · rw [if_neg h0] at hl; exact ⟨h0, (Option.some.inj hl).symm⟩
    obtain ⟨hlv, rfl⟩ := hlv
    have hremote : remote = keys.sessionPub := by
      rw [createExtensions_eq] at hrem
      unfold Spec.request at hrem
      simp only [if_neg hlv, optParse, c33_round_trip.1 _ hkey] at hrem
      simpa using hrem.symm
    subst hremote
    rw [checkAuth_request co keys hlv] at hauth
    have hauth : auth = keys.auth.map (·.pub) := by simpa using hauth.symm
    have ucheck : ∀ e, e = .encryptionLevel ∨ e = .sessionPublicKey ∨ e = .authPublicKey ∨ e = .signature →
        u e = srvKeys cfg session auth (u1.insert .encryptionLevel (srvLevel co.level).text) e := by
      intro e he
      rw [hu e (by rcases he with rfl | rfl | rfl | rfl <;> simp), hueq]
    have hlt : u .encryptionLevel = some (srvLevel co.level).text := by
      rw [ucheck _ (.inl rfl), srvKeys_other _ _ _ _ _ (by simp)]
      simp [Exts.insert]
    have hs : u .sessionPublicKey = some (encodeKey session) := by
      rw [ucheck _ (.inr (.inl rfl)), srvKeys_session]
    have hca : checkAuth S u session = .ok (if auth.isSome then cfg.privateKey.map (·.pub) else none) := by
      have : checkAuth S u session =
          checkAuth S (srvKeys cfg session auth (u1.insert .encryptionLevel (srvLevel co.level).text)) session := by
        unfold checkAuth
        rw [ucheck _ (.inr (.inr (.inl rfl))), ucheck _ (.inr (.inr (.inr rfl)))]
      rw [this]
      exact checkAuth_reply _ _ _ _ (by simp [Exts.insert, hN.rest.2.2.1])
    have hsl : srvLevel co.level ≠ .none ∧ (co.level = .data → srvLevel co.level = .data) ∧
        (co.level = .protocol → srvLevel co.level = .protocol) := by
      cases hc : co.level <;> simp_all [srvLevel]
    refine ⟨⟨⟨o1.blockSize, o1.retry, fs, srvLevel co.level, o1.window⟩, some ⟨if auth.isSome then cfg.privateKey.map (·.pub) else none, session⟩, ?_, ho.1.symm, ho.2.1.symm,
      ho.2.2.symm, ?_, .inr ⟨_, rfl, rfl⟩, fun a b => hfs a b⟩, ?_⟩
    · unfold cliOack
      rw [if_pos hval]
      unfold cliParse
      rw [hnum]
      simp only
      rw [if_neg hlv, hlt]
      simp only [optParse, levelText_parse, Option.getD_some]
      rw [if_neg (by rintro ⟨h1, -⟩; exact hsl.1 h1), if_neg (by
        rintro ⟨h1 | h1, h2⟩
        · exact h2 (.inl (by rw [hsl.2.1 h1]))
        · exact h2 (.inr (by rw [hsl.2.2 h1])))]
      rw [hs]
      simp only [c33_round_trip.1 _ hses, hca]
      rw [if_neg]
      rintro ⟨-, h1, h2, h3⟩
      obtain ⟨p, hp'⟩ := Option.isSome_iff_exists.mp h2
      obtain ⟨a, ha, hap⟩ := hknown p hp'
      apply h3
      obtain ⟨a', ha'⟩ := Option.isSome_iff_exists.mp h1
      simp [hauth, ha', ha, hp', hap]
    · simp only [holvl]
    · intro he
      have := he .encryptionLevel
      rw [hlt] at this
      cases this

end Tftp

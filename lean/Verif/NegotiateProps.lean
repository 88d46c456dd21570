import Verif.NegotiateInv
import Verif.PacketProps
/-
C16 (server limits), C17 (client limits), C18 (agreement), C23 (authorized keys), C24 (required encryption), and the
announced size part of C21.
-/
namespace Tftp

/-! ### The server -/

theorem srvKeys_other {S : SigScheme} (cfg : SrvCfg S) (session : Bytes) (auth : Option Bytes) (u : Exts) (e : Extension)
    (h : e ≠ .sessionPublicKey ∧ e ≠ .authPublicKey ∧ e ≠ .signature) : srvKeys cfg session auth u e = u e := by
  unfold srvKeys
  cases cfg.privateKey <;> cases auth <;> simp [Exts.insert, h.1, h.2.1, h.2.2]

theorem srvReadSize_other (actual : Option Nat) (u : Exts) (o : Opts) (e : Extension) (h : e ≠ .transferSize) :
    (srvReadSize actual u o).1 e = u e := by
  unfold srvReadSize
  split
  · split <;> simp [Exts.insert, h]
  · simp [Exts.remove, h]
  · rfl

theorem srvReadSize_opts (actual : Option Nat) (u : Exts) (o : Opts) :
    (srvReadSize actual u o).2 = { o with fileSize := actual } := by
  unfold srvReadSize
  split
  · split <;> rfl
  · rfl
  · rfl

theorem srvReadSize_isSome (actual : Option Nat) (u : Exts) (o : Opts) (e : Extension)
    (h : ((srvReadSize actual u o).1 e).isSome) : (u e).isSome := by
  by_cases he : e = .transferSize
  · subst he
    unfold srvReadSize at h
    split at h
    · rename_i hs; rw [hs]; rfl
    · rename_i hs; rw [hs]; rfl
    · exact h
  · rwa [srvReadSize_other _ _ _ _ he] at h

/-- Numeric options and level of an accepted request. -/
theorem srvNegotiate_ok {S : SigScheme} {cfg : SrvCfg S} {session : Bytes} {ce : Exts} {lvl : Level} {kind : ReqKind}
    {u : Exts} {o : Opts} {k : Option SessionKeys} (h : srvNegotiate cfg session lvl ce kind = .ok (u, o, k)) :
    ∃ u0 o0, srvParse cfg session ce { Opts.default with level := lvl } = .ok (u0, o0, k) ∧
      o0.fileSize.getD 0 ≤ cfg.maxFileSize ∧
      (kind = .write ∧ u = u0 ∧ o = o0 ∨
        ∃ a, kind = .read a ∧ u = (srvReadSize a u0 o0).1 ∧ o = { o0 with fileSize := a }) := by
  unfold srvNegotiate at h
  split at h
  · cases h
  · rename_i u0 o0 k0 hp
    split at h
    · rename_i hs
      have hs : o0.fileSize.getD 0 ≤ cfg.maxFileSize := by simpa [sizeAllowed] using hs
      cases kind with
      | write =>
        simp only [Except.ok.injEq, Prod.mk.injEq] at h
        obtain ⟨rfl, rfl, rfl⟩ := h
        exact ⟨u0, o0, hp, hs, .inl ⟨rfl, rfl, rfl⟩⟩
      | read a =>
        simp only [Except.ok.injEq, Prod.mk.injEq] at h
        obtain ⟨rfl, rfl, rfl⟩ := h
        exact ⟨u0, o0, hp, hs, .inr ⟨a, rfl, rfl, srvReadSize_opts a u0 o0⟩⟩
    · cases h

theorem requested_isSome {ce : Exts} {e : Extension} {m n : Nat} (h : Spec.requested ce e m = some n) :
    (ce e).isSome := by
  unfold Spec.requested at h
  cases hc : ce e with
  | none => rw [hc] at h; cases h
  | some => rfl

/-- **C16**: whatever is requested, the server uses a block size between 512 and its maximum, a window between 1 and its
maximum, the default retransmission timeout or one between a second and its request timeout; it confirms
only options which were requested, it confirms the values it uses, what is not confirmed has the protocol default,
and a confirmed number is never more than the requested one. -/
theorem c16_server_limits {S : SigScheme} (cfg : SrvCfg S) (hb : 512 ≤ cfg.maxBlock) (hw : 1 ≤ cfg.maxWindow)
    (session : Bytes) (handshake : Level) (ce : Exts) (kind : ReqKind) (u : Exts) (o : Opts) (k : Option SessionKeys)
    (h : srvNegotiate cfg session handshake ce kind = .ok (u, o, k)) :
    (512 ≤ o.blockSize ∧ o.blockSize ≤ cfg.maxBlock) ∧
    (1 ≤ o.window ∧ o.window ≤ cfg.maxWindow) ∧
    (o.retry = 80 ∨ 1000 ≤ o.retry ∧ o.retry ≤ cfg.requestTimeout) ∧
    (∀ e, (u e).isSome → (ce e).isSome) ∧
    (u .blockSize = some (decimal o.blockSize) ∨ u .blockSize = none ∧ o.blockSize = 512) ∧
    (u .windowSize = some (decimal o.window) ∨ u .windowSize = none ∧ o.window = 1) ∧
    (u .timeout = some (decimal (o.retry / 1000)) ∨ u .timeout = none ∧ o.retry = 80) ∧
    (∀ n, Spec.requested ce .blockSize 65535 = some n → (u .blockSize).isSome → o.blockSize ≤ n) ∧
    (∀ n, Spec.requested ce .windowSize 65535 = some n → (u .windowSize).isSome → o.window ≤ n) := by
  obtain ⟨u0, o0, hp, -, hk⟩ := srvNegotiate_ok h
  obtain ⟨u1, o1, cl, hN, hcl, -, hcase⟩ := srvParse_ok hp
  -- relate the final options to the ones after the numeric steps
  have hu0 : ∀ e, e ≠ .sessionPublicKey → e ≠ .authPublicKey → e ≠ .signature → e ≠ .encryptionLevel →
      u0 e = u1 e := by
    intro e h1 h2 h3 h4
    rcases hcase with ⟨-, -, rfl, -, -⟩ | ⟨l, remote, auth, -, -, -, -, -, -, rfl, -, -⟩
    · rfl
    · rw [srvKeys_other _ _ _ _ _ ⟨h1, h2, h3⟩]; simp [Exts.insert, h4]
  have ho0 : o0.blockSize = o1.blockSize ∧ o0.window = o1.window ∧ o0.retry = o1.retry := by
    rcases hcase with ⟨-, -, -, rfl, -⟩ | ⟨l, remote, auth, -, -, -, -, -, -, -, rfl, -⟩
    · exact ⟨rfl, rfl, rfl⟩
    · exact ⟨rfl, rfl, rfl⟩
  have hu : ∀ e, e ≠ .transferSize → u e = u0 e := by
    intro e he
    rcases hk with ⟨-, rfl, -⟩ | ⟨a, -, rfl, -⟩
    · rfl
    · exact srvReadSize_other _ _ _ _ he
  have ho : o.blockSize = o1.blockSize ∧ o.window = o1.window ∧ o.retry = o1.retry := by
    rcases hk with ⟨-, -, rfl⟩ | ⟨a, -, -, rfl⟩ <;> exact ho0
  have hub : u .blockSize = u1 .blockSize := by rw [hu _ (by simp), hu0 _ (by simp) (by simp) (by simp) (by simp)]
  have huw : u .windowSize = u1 .windowSize := by rw [hu _ (by simp), hu0 _ (by simp) (by simp) (by simp) (by simp)]
  have hut : u .timeout = u1 .timeout := by rw [hu _ (by simp), hu0 _ (by simp) (by simp) (by simp) (by simp)]
  obtain ⟨ob, ow, ot⟩ := ho
  rw [hub, huw, hut, ob, ow, ot]
  have B := hN.block
  have W := hN.window
  have T := hN.timeout
  refine ⟨?_, ?_, ?_, ?_, ?_, ?_, ?_, ?_, ?_⟩
  · rcases B with ⟨-, B, -⟩ | ⟨n, -, B, B', -⟩ <;> omega
  · rcases W with ⟨-, W, -⟩ | ⟨n, -, W, W', -⟩ <;> omega
  · rcases T with ⟨-, T, -⟩ | ⟨n, -, T1, T2, T3, -⟩ <;> omega
  · intro e he
    have he0 : (u0 e).isSome := by
      rcases hk with ⟨-, rfl, -⟩ | ⟨a, -, rfl, -⟩
      · exact he
      · exact srvReadSize_isSome _ _ _ _ he
    have h1 : (u1 e).isSome → (ce e).isSome := by
      intro h1
      cases e with
      | blockSize =>
        rcases B with ⟨B, -⟩ | ⟨n, B, -⟩
        · rw [B] at h1; cases h1
        · exact requested_isSome B
      | windowSize =>
        rcases W with ⟨W, -⟩ | ⟨n, W, -⟩
        · rw [W] at h1; cases h1
        · exact requested_isSome W
      | timeout =>
        rcases T with ⟨T, -⟩ | ⟨n, T, -⟩
        · rw [T] at h1; cases h1
        · exact requested_isSome T
      | transferSize =>
        rcases hN.size with ⟨Z, -⟩ | ⟨n, Z, -⟩
        · rw [Z] at h1; cases h1
        · exact requested_isSome Z
      | encryptionLevel => rw [hN.rest.1] at h1; cases h1
      | sessionPublicKey => rw [hN.rest.2.1] at h1; cases h1
      | authPublicKey => rw [hN.rest.2.2.1] at h1; cases h1
      | signature => rw [hN.rest.2.2.2] at h1; cases h1
    rcases hcase with ⟨-, -, rfl, -, -⟩ | ⟨l, remote, auth, hl, -, -, hses, hauth, -, rfl, -, -⟩
    · exact h1 he0
    · by_cases e1 : e = .sessionPublicKey
      · subst e1
        obtain ⟨t, ht, -⟩ := optParse_ok_some hses
        rw [ht]; rfl
      · by_cases e2 : e = .encryptionLevel
        · subst e2
          rw [hl] at hcl
          obtain ⟨t, ht, -⟩ := optParse_ok_some hcl
          rw [ht]; rfl
        · by_cases e3 : e = .authPublicKey ∨ e = .signature
          · cases auth with
            | none =>
              have : (u1 e).isSome := by
                unfold srvKeys at he0
                rcases e3 with rfl | rfl <;> cases hpk : cfg.privateKey <;>
                  simpa [hpk, Exts.insert] using he0
              exact h1 this
            | some a =>
              obtain ⟨t, ts, sig, ht, -, hts, -⟩ := checkAuth_ok_some hauth
              rcases e3 with rfl | rfl
              · rw [ht]; rfl
              · rw [hts]; rfl
          · simp only [not_or] at e3
            rw [srvKeys_other _ _ _ _ _ ⟨e1, e3.1, e3.2⟩] at he0
            simp only [Exts.insert, if_neg e2] at he0
            exact h1 he0
  · rcases B with ⟨B, B', -⟩ | ⟨n, -, -, B, B'⟩
    · exact .inr ⟨B, B'⟩
    · left; rw [B', B]
  · rcases W with ⟨W, W', -⟩ | ⟨n, -, -, W, W'⟩
    · exact .inr ⟨W, W'⟩
    · left; rw [W', W]
  · rcases T with ⟨T, T', -⟩ | ⟨n, -, -, -, T, T'⟩
    · exact .inr ⟨T, T'⟩
    · left
      rw [T', T]
      congr 2
      omega
  · intro n hn hs
    rcases B with ⟨B, -⟩ | ⟨m, B1, -, B2, -⟩
    · rw [B] at hs; cases hs
    · rw [hn] at B1; cases B1; omega
  · intro n hn hs
    rcases W with ⟨W, -⟩ | ⟨m, W1, -, W2, -⟩
    · rw [W] at hs; cases hs
    · rw [hn] at W1; cases W1; omega

/-- **C21**, announced size: a request which announces (`tsize`) more than the configured maximum is refused. -/
theorem c21_announced_size_refused {S : SigScheme} (cfg : SrvCfg S) (session : Bytes) (handshake : Level) (ce : Exts)
    (kind : ReqKind) (n : Nat) (hn : Spec.requested ce .transferSize (2 ^ 64 - 1) = some n) (hm : cfg.maxFileSize < n) :
    ∃ e, srvNegotiate cfg session handshake ce kind = .error e := by
  cases h : srvNegotiate cfg session handshake ce kind with
  | error e => exact ⟨e, rfl⟩
  | ok r =>
    exfalso
    obtain ⟨u, o, k⟩ := r
    obtain ⟨u0, o0, hp, hs, -⟩ := srvNegotiate_ok h
    obtain ⟨u1, o1, cl, hN, -, -, hcase⟩ := srvParse_ok hp
    have : o0.fileSize = o1.fileSize := by
      rcases hcase with ⟨-, -, -, rfl, -⟩ | ⟨l, remote, auth, -, -, -, -, -, -, -, rfl, -⟩ <;> rfl
    rcases hN.size with ⟨-, -, Z⟩ | ⟨m, Z, Z', -⟩
    · rw [hn] at Z; cases Z
    · rw [hn] at Z; cases Z
      rw [this, Z'] at hs
      simp at hs
      omega

/-- **C23**: with an authorized key list configured, a transfer is created only for a request with a listed key and a
signature, valid under that key, of the session key which the server then uses for the encryption of the transfer. -/
theorem c23_authorized_keys {S : SigScheme} (cfg : SrvCfg S) (ks : List Bytes) (hks : cfg.authorized = some ks)
    (session : Bytes) (handshake : Level) (ce : Exts) (kind : ReqKind) (u : Exts) (o : Opts) (k : Option SessionKeys)
    (h : srvNegotiate cfg session handshake ce kind = .ok (u, o, k)) :
    ∃ key sig remote keyText sigText remoteText,
      ce .authPublicKey = some keyText ∧ decodeVerifyingKey S.point keyText = some key ∧ key ∈ ks ∧
      ce .signature = some sigText ∧ decodeSignature sigText = some sig ∧
      ce .sessionPublicKey = some remoteText ∧ decodeKey 32 remoteText = some remote ∧
      S.verify key remote sig = true ∧ k = some ⟨session, remote⟩ ∧
      (o.level = .data ∨ o.level = .protocol ∨ o.level = .full) := by
  obtain ⟨u0, o0, hp, -, hk⟩ := srvNegotiate_ok h
  obtain ⟨u1, o1, cl, hN, hcl, -, hcase⟩ := srvParse_ok hp
  rcases hcase with ⟨-, hn, -⟩ | ⟨l, remote, auth, hl, hne, -, hses, hauth, hin, -, ho, hkk⟩
  · rw [hks] at hn; cases hn
  · obtain ⟨a, rfl, ha⟩ := hin ks hks
    obtain ⟨t, ts, sig, h1, h2, h3, h4, h5⟩ := checkAuth_ok_some hauth
    obtain ⟨rt, h6, h7⟩ := optParse_ok_some hses
    refine ⟨a, sig, remote, t, ts, rt, h1, h2, ha, h3, h4, h6, h7, h5, hkk, ?_⟩
    have : o.level = srvLevel l := by
      rcases hk with ⟨-, -, rfl⟩ | ⟨b, -, -, rfl⟩ <;> rw [ho]
    rw [this]
    cases l <;> simp_all [srvLevel]

/-- Without an authorized key, with an unlisted key, or without valid signature the request is refused. -/
theorem c23_refused {S : SigScheme} (cfg : SrvCfg S) (ks : List Bytes) (hks : cfg.authorized = some ks)
    (session : Bytes) (handshake : Level) (ce : Exts) (kind : ReqKind)
    (hbad : ∀ t key, ce .authPublicKey = some t → decodeVerifyingKey S.point t = some key → key ∉ ks) :
    ∃ e, srvNegotiate cfg session handshake ce kind = .error e := by
  cases h : srvNegotiate cfg session handshake ce kind with
  | error e => exact ⟨e, rfl⟩
  | ok r =>
    obtain ⟨u, o, k⟩ := r
    obtain ⟨key, sig, remote, t, ts, rt, h1, h2, h3, -⟩ := c23_authorized_keys cfg ks hks session handshake ce kind u o k h
    exact absurd h3 (hbad t key h1 h2)

/-! ### The client -/

theorem cliNumbers_ok {se : Exts} {o o' : Opts} (h : cliNumbers se o = .ok o') :
    (se .blockSize = none ∧ o'.blockSize = 512 ∨
      ∃ t, se .blockSize = some t ∧ parseUInt 65535 t = some o'.blockSize ∧ 512 ≤ o'.blockSize ∧
        o'.blockSize ≤ o.blockSize) ∧
    (se .windowSize = none ∧ o'.window = 1 ∨
      ∃ t, se .windowSize = some t ∧ parseUInt 65535 t = some o'.window ∧ 1 ≤ o'.window ∧ o'.window ≤ o.window) ∧
    (se .timeout = none ∧ o'.retry = 80 ∨
      ∃ t n, se .timeout = some t ∧ parseUInt 255 t = some n ∧ 1 ≤ n ∧ o'.retry = n * 1000) ∧
    (se .transferSize = none ∧ o'.fileSize = o.fileSize ∨
      ∃ t, se .transferSize = some t ∧ o'.fileSize = some ((parseUInt (2 ^ 64 - 1) t).getD 0) ∧
        (o.fileSize = none ∨ o.fileSize = some 0 ∨ o'.fileSize = o.fileSize)) ∧
    o'.level = o.level := by
  unfold cliNumbers at h
  split at h
  · cases h
  · rename_i o1 h1
    split at h
    · cases h
    · rename_i o2 h2
      split at h
      · cases h
      · rename_i o3 h3
        have b1 : (se .blockSize = none ∧ o1.blockSize = 512 ∨
          ∃ t, se .blockSize = some t ∧ parseUInt 65535 t = some o1.blockSize ∧ 512 ≤ o1.blockSize ∧
            o1.blockSize ≤ o.blockSize) ∧ o1.window = o.window ∧ o1.retry = o.retry ∧ o1.fileSize = o.fileSize ∧
            o1.level = o.level := by
          unfold cliBlock at h1
          split at h1
          · rename_i t ht
            dsimp only at h1
            split at h1
            · rename_i hc
              simp only [Except.ok.injEq] at h1
              subst h1
              have := getD_pos rfl (show 0 < (parseUInt 65535 t).getD 0 by omega)
              exact ⟨.inr ⟨t, ht, this, hc.1, hc.2⟩, rfl, rfl, rfl, rfl⟩
            · cases h1
          · rename_i ht
            simp only [Except.ok.injEq] at h1
            subst h1
            exact ⟨.inl ⟨ht, rfl⟩, rfl, rfl, rfl, rfl⟩
        have b2 : (se .windowSize = none ∧ o2.window = 1 ∨
          ∃ t, se .windowSize = some t ∧ parseUInt 65535 t = some o2.window ∧ 1 ≤ o2.window ∧ o2.window ≤ o1.window) ∧
            o2.blockSize = o1.blockSize ∧ o2.retry = o1.retry ∧ o2.fileSize = o1.fileSize ∧ o2.level = o1.level := by
          unfold cliWindow at h2
          split at h2
          · rename_i t ht
            dsimp only at h2
            split at h2
            · rename_i hc
              simp only [Except.ok.injEq] at h2
              subst h2
              have := getD_pos rfl (show 0 < (parseUInt 65535 t).getD 0 by omega)
              exact ⟨.inr ⟨t, ht, this, hc.1, hc.2⟩, rfl, rfl, rfl, rfl⟩
            · cases h2
          · rename_i ht
            simp only [Except.ok.injEq] at h2
            subst h2
            exact ⟨.inl ⟨ht, rfl⟩, rfl, rfl, rfl, rfl⟩
        have b3 : (se .timeout = none ∧ o3.retry = 80 ∨
          ∃ t n, se .timeout = some t ∧ parseUInt 255 t = some n ∧ 1 ≤ n ∧ o3.retry = n * 1000) ∧
            o3.blockSize = o2.blockSize ∧ o3.window = o2.window ∧ o3.fileSize = o2.fileSize ∧ o3.level = o2.level := by
          unfold cliTimeout at h3
          split at h3
          · rename_i t ht
            dsimp only at h3
            split at h3
            · rename_i hc
              simp only [Except.ok.injEq] at h3
              subst h3
              have := getD_pos rfl (show 0 < (parseUInt 255 t).getD 0 by omega)
              exact ⟨.inr ⟨t, _, ht, this, hc.1, rfl⟩, rfl, rfl, rfl, rfl⟩
            · cases h3
          · rename_i ht
            simp only [Except.ok.injEq] at h3
            subst h3
            exact ⟨.inl ⟨ht, rfl⟩, rfl, rfl, rfl, rfl⟩
        have b4 : (se .transferSize = none ∧ o'.fileSize = o3.fileSize ∨
          ∃ t, se .transferSize = some t ∧ o'.fileSize = some ((parseUInt (2 ^ 64 - 1) t).getD 0) ∧
            (o3.fileSize = none ∨ o3.fileSize = some 0 ∨ o'.fileSize = o3.fileSize)) ∧
            o'.blockSize = o3.blockSize ∧ o'.window = o3.window ∧ o'.retry = o3.retry ∧ o'.level = o3.level := by
          unfold cliSize at h
          split at h
          · rename_i t ht
            dsimp only at h
            split at h
            · rename_i hc
              simp only [Except.ok.injEq] at h
              subst h
              refine ⟨.inr ⟨t, ht, rfl, ?_⟩, rfl, rfl, rfl, rfl⟩
              rcases hc with hc | hc
              · exact .inl hc
              · exact .inr (.inl hc)
            · split at h
              · cases h
              · rename_i hc
                simp only [Except.ok.injEq] at h
                subst h
                exact ⟨.inr ⟨t, ht, Classical.not_not.mp hc, .inr (.inr rfl)⟩, rfl, rfl, rfl, rfl⟩
          · rename_i ht
            simp only [Except.ok.injEq] at h
            subst h
            exact ⟨.inl ⟨ht, rfl⟩, rfl, rfl, rfl, rfl⟩
        obtain ⟨c1, c2, c3, c4, c5⟩ := b1
        obtain ⟨d1, d2, d3, d4, d5⟩ := b2
        obtain ⟨e1, e2, e3, e4, e5⟩ := b3
        obtain ⟨f1, f2, f3, f4, f5⟩ := b4
        rw [e4, d4, c4] at f1
        rw [c2] at d1
        rw [f2, e2, d2, f3, e3, f4, f5, e5, d5, c5]
        exact ⟨c1, d1, e1, f1, rfl⟩

theorem validateExtensions_iff (se used : Exts) :
    validateExtensions se used = true ↔ ∀ e, (se e).isSome → (used e).isSome := by
  unfold validateExtensions
  simp only [List.all_eq_true, Bool.or_eq_true]
  constructor
  · intro h e he
    have : e ∈ Extension.all := by cases e <;> decide
    rcases h e this with h | h
    · rw [Option.isNone_iff_eq_none] at h; rw [h] at he; cases he
    · exact h
  · intro h e _
    cases hs : se e with
    | none => exact .inl rfl
    | some v => exact .inr (h e (by rw [hs]; rfl))

/-- **C17**: if a client accepts an option acknowledgement then every confirmed option was requested, and the resulting
numbers are the confirmed ones and at most what was asked for (the protocol default if not confirmed); a size which
the client announced itself is unchanged. -/
theorem c17_client_limits (S : SigScheme) (hasKey : Bool) (known : Option Bytes) (used : Exts) (o : Opts) (se : Exts)
    (o' : Opts) (rk : Option RemoteKeys) (sent : List Packet)
    (h : cliOack S hasKey known used o se = (.ok (o', rk), sent)) :
    (∀ e, (se e).isSome → (used e).isSome) ∧
    (o'.blockSize = 512 ∨ 512 ≤ o'.blockSize ∧ o'.blockSize ≤ o.blockSize) ∧
    (o'.window = 1 ∨ 1 ≤ o'.window ∧ o'.window ≤ o.window) ∧
    (o'.retry = 80 ∨ 1000 ≤ o'.retry ∧ o'.retry ≤ 255000) ∧
    (∀ t, se .blockSize = some t → parseUInt 65535 t = some o'.blockSize) ∧
    (∀ t, se .windowSize = some t → parseUInt 65535 t = some o'.window) ∧
    (∀ n, o.fileSize = some n → 0 < n → o'.fileSize = some n) := by
  unfold cliOack at h
  split at h
  · rename_i hv
    split at h
    · cases h
    · rename_i o1 rk1 hp
      have hn : ∃ o2, cliNumbers se o = .ok o2 ∧ o'.blockSize = o2.blockSize ∧ o'.window = o2.window ∧
          o'.retry = o2.retry ∧ o'.fileSize = o2.fileSize := by
        have : o1 = o' := by
          split at h
          · cases h
          · simp only [Prod.mk.injEq, Except.ok.injEq] at h; exact h.1.1
        subst this
        unfold cliParse at hp
        split at hp
        · cases hp
        · rename_i o2 h2
          refine ⟨o2, h2, ?_⟩
          repeat' split at hp
          all_goals first
            | (simp only [Except.ok.injEq, Prod.mk.injEq] at hp; rw [← hp.1]; done)
            | (simp only [Except.ok.injEq, Prod.mk.injEq] at hp; rw [← hp.1]; exact ⟨rfl, rfl, rfl, rfl⟩)
            | cases hp
      obtain ⟨o2, hn, e1, e2, e3, e4⟩ := hn
      obtain ⟨c1, c2, c3, c4, -⟩ := cliNumbers_ok hn
      rw [e1, e2, e3, e4]
      refine ⟨(validateExtensions_iff se used).mp hv, ?_, ?_, ?_, ?_, ?_, ?_⟩
      · rcases c1 with ⟨-, c⟩ | ⟨t, -, -, c⟩
        · exact .inl c
        · exact .inr c
      · rcases c2 with ⟨-, c⟩ | ⟨t, -, -, c⟩
        · exact .inl c
        · exact .inr c
      · rcases c3 with ⟨-, c⟩ | ⟨t, n, -, hp', c, c'⟩
        · exact .inl c
        · have := parseUInt_le _ _ _ hp'
          right; omega
      · intro t ht
        rcases c1 with ⟨c, -⟩ | ⟨t', c, c', -⟩
        · rw [c] at ht; cases ht
        · rw [c] at ht; cases ht; exact c'
      · intro t ht
        rcases c2 with ⟨c, -⟩ | ⟨t', c, c', -⟩
        · rw [c] at ht; cases ht
        · rw [c] at ht; cases ht; exact c'
      · intro n hn' hpos
        rcases c4 with ⟨-, c⟩ | ⟨t, -, c, c' | c' | c'⟩
        · rw [c, hn']
        · rw [hn'] at c'; cases c'
        · rw [hn'] at c'; cases c'; omega
        · rw [c', hn']
  · cases h

/-- **C17** (partial): an option acknowledgement with an option which was not requested aborts the transfer and an error
packet is sent. Missing: the error packet for values out of range, see
`c17_bad_value_no_error_packet`. -/
theorem c17_unrequested_option_partial (S : SigScheme) (hasKey : Bool) (known : Option Bytes) (used : Exts) (o : Opts)
    (se : Exts) (e : Extension) (h1 : (se e).isSome) (h2 : used e = none) :
    ∃ m, cliOack S hasKey known used o se = (.error .remoteError, [.error .illegalOperation m]) := by
  unfold cliOack
  rw [if_neg]
  · exact ⟨_, rfl⟩
  · rw [validateExtensions_iff]
    intro hc
    have := hc e h1
    rw [h2] at this
    cases this

/-- **C17**: a block size which was requested smaller aborts the transfer, -/
theorem c17_bad_value_rejected (S : SigScheme) (hasKey : Bool) (known : Option Bytes) (used : Exts) (o : Opts)
    (se : Exts) (t : Bytes) (ht : se .blockSize = some t) (hbad : ∀ n, parseUInt 65535 t = some n → n < 512 ∨ o.blockSize < n) :
    ∃ x sent, cliOack S hasKey known used o se = (.error x, sent) := by
  cases h : cliOack S hasKey known used o se with
  | mk r sent =>
    cases r with
    | error x => exact ⟨x, sent, rfl⟩
    | ok r =>
      exfalso
      obtain ⟨o', rk⟩ := r
      obtain ⟨-, -, -, -, hb, -⟩ := c17_client_limits S hasKey known used o se o' rk sent h
      have hb := hb t ht
      unfold cliOack at h
      split at h
      · split at h
        · cases h
        · rename_i o1 rk1 hp
          split at h
          · cases h
          · simp only [Prod.mk.injEq, Except.ok.injEq] at h
            obtain ⟨⟨rfl, rfl⟩, rfl⟩ := h
            unfold cliParse at hp
            split at hp
            · cases hp
            · rename_i o2 h2
              obtain ⟨c1, -⟩ := cliNumbers_ok h2
              rcases c1 with ⟨c, -⟩ | ⟨t', c, c', c2, c3⟩
              · rw [c] at ht; cases ht
              · rw [c] at ht; cases ht
                rcases hbad _ c' <;> omega
      · cases h

/-- but (finding) no error packet is sent to the server then. -/
theorem c17_bad_value_no_error_packet (S : SigScheme) (hasKey : Bool) (known : Option Bytes) (used : Exts) (o : Opts)
    (se : Exts) (hv : ∀ e, (se e).isSome → (used e).isSome) : (cliOack S hasKey known used o se).2 = [] := by
  unfold cliOack
  rw [if_pos ((validateExtensions_iff se used).mpr hv)]
  split
  · rfl
  · split <;> rfl


/-! ### C25: optional encryption -/

theorem cliNumbers_with_level (se : Exts) (o : Opts) (l : Level) :
    cliNumbers se { o with level := l } = (cliNumbers se o).map fun o => { o with level := l } := by
  have h1 : ∀ o : Opts, cliBlock se { o with level := l } = (cliBlock se o).map fun o => { o with level := l } := by
    intro o; unfold cliBlock; cases se .blockSize <;> simp only <;> repeat' split
    all_goals rfl
  have h2 : ∀ o : Opts, cliWindow se { o with level := l } = (cliWindow se o).map fun o => { o with level := l } := by
    intro o; unfold cliWindow; cases se .windowSize <;> simp only <;> repeat' split
    all_goals rfl
  have h3 : ∀ o : Opts, cliTimeout se { o with level := l } = (cliTimeout se o).map fun o => { o with level := l } := by
    intro o; unfold cliTimeout; cases se .timeout <;> simp only <;> repeat' split
    all_goals rfl
  have h4 : ∀ o : Opts, cliSize se { o with level := l } = (cliSize se o).map fun o => { o with level := l } := by
    intro o; unfold cliSize; cases se .transferSize <;> simp only <;> repeat' split
    all_goals rfl
  unfold cliNumbers
  rw [h1]
  cases cliBlock se o with
  | error x => rfl
  | ok o =>
    simp only [Except.map]
    rw [h2]
    cases cliWindow se o with
    | error x => rfl
    | ok o =>
      simp only [Except.map]
      rw [h3]
      cases cliTimeout se o with
      | error x => rfl
      | ok o => exact h4 o

/-- **C25**: only the optional levels may fall back to plaintext, and they do: if the server confirms no encryption (or the level
`none`), the client with an optional level treats the answer exactly as a client which has not asked for encryption, whatever keys it has. -/
theorem c25_optional_falls_back (S : SigScheme) (hasKey : Bool) (known : Option Bytes) (used : Exts) (o : Opts) (se : Exts)
    (hl : o.level = .optionalData ∨ o.level = .optionalProtocol)
    (hs : ∀ t, se .encryptionLevel = some t → Level.parse t = some .none) :
    cliOack S hasKey known used o se = cliOack S hasKey known used { o with level := .none } se := by
  have hp : ∃ r, optParse (se .encryptionLevel) Level.parse = .ok r ∧ r.getD .none = .none := by
    cases he : se .encryptionLevel with
    | none => exact ⟨none, rfl, rfl⟩
    | some t => exact ⟨some .none, by simp only [optParse, hs t he], rfl⟩
  obtain ⟨r, hr, hn⟩ := hp
  have : cliParse S se o = cliParse S se { o with level := .none } := by
    unfold cliParse
    rw [cliNumbers_with_level se o .none]
    cases hc : cliNumbers se o with
    | error x => rfl
    | ok o1 =>
      have hl1 : o1.level = o.level := by
        have := cliNumbers_with_level se o o.level
        rw [show ({ o with level := o.level } : Opts) = o from rfl, hc] at this
        simp only [Except.map, Except.ok.injEq] at this
        rw [this]
      simp only [Except.map, if_true]
      rw [if_neg (by rw [hl1]; rcases hl with h | h <;> rw [h] <;> simp), hr]
      simp only
      rw [if_pos ⟨hn, by rw [hl1]; exact hl⟩]
  unfold cliOack
  rw [this]

/-- The hypotheses are met: an answer without encryption to a client with optional encryption is accepted as plain. -/
example : (match cliOack ⟨fun _ => true, fun _ _ _ => true⟩ true (some [1]) (Exts.empty.insert .blockSize (ascii "1024"))
    ⟨1024, 80, none, .optionalProtocol, 2⟩ (Exts.empty.insert .blockSize (ascii "600")) with
  | (.ok (o, rk), []) => decide (o.level = .none) && decide (o.blockSize = 600) && rk.isNone
  | _ => false) = true := by decide +kernel

end Tftp

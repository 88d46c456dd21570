import Verif.Negotiate
/-
What the server's option parser does, in one place (used by C16, C18, C23, C24).
-/
namespace Tftp

/-- A number requested with option `e`. -/
def Spec.requested (ce : Exts) (e : Extension) (max : Nat) : Option Nat := (ce e).bind (parseUInt max)

/-- The state after the numeric options. -/
structure Numbers {S : SigScheme} (cfg : SrvCfg S) (ce u : Exts) (o : Opts) (lvl : Level) : Prop where
  block : (u .blockSize = none ∧ o.blockSize = 512 ∧ ∀ n, Spec.requested ce .blockSize 65535 = some n → n < 512) ∨
    ∃ n, Spec.requested ce .blockSize 65535 = some n ∧ (512 ≤ n ∨ cfg.maxBlock < n) ∧
      o.blockSize = min n cfg.maxBlock ∧ u .blockSize = some (decimal (min n cfg.maxBlock))
  window : (u .windowSize = none ∧ o.window = 1 ∧ ∀ n, Spec.requested ce .windowSize 65535 = some n → n < 1) ∨
    ∃ n, Spec.requested ce .windowSize 65535 = some n ∧ (1 ≤ n ∨ cfg.maxWindow < n) ∧
      o.window = min n cfg.maxWindow ∧ u .windowSize = some (decimal (min n cfg.maxWindow))
  timeout : (u .timeout = none ∧ o.retry = 80 ∧
      ∀ n, Spec.requested ce .timeout 255 = some n → ¬ (1 ≤ n ∧ n ≤ cfg.requestTimeout / 1000)) ∨
    ∃ n, Spec.requested ce .timeout 255 = some n ∧ 1 ≤ n ∧ n ≤ cfg.requestTimeout / 1000 ∧
      o.retry = n * 1000 ∧ u .timeout = some (decimal n)
  size : (u .transferSize = none ∧ o.fileSize = none ∧ Spec.requested ce .transferSize (2 ^ 64 - 1) = none) ∨
    ∃ n, Spec.requested ce .transferSize (2 ^ 64 - 1) = some n ∧ o.fileSize = some n ∧
      u .transferSize = some (decimal n)
  level : o.level = lvl
  rest : u .encryptionLevel = none ∧ u .sessionPublicKey = none ∧ u .authPublicKey = none ∧ u .signature = none

/-- The four steps. -/
def srvNumbers {S : SigScheme} (cfg : SrvCfg S) (ce : Exts) (o : Opts) : Exts × Opts :=
  let a := srvBlock cfg ce Exts.empty o
  let b := srvWindow cfg ce a.1 a.2
  let c := srvTimeout cfg ce b.1 b.2
  srvSize ce c.1 c.2

theorem getD_pos {o : Option Nat} {n : Nat} (h : o.getD 0 = n) (hn : 0 < n) : o = some n := by
  cases o with
  | none => simp at h; omega
  | some k => simp at h; rw [h]

theorem srvNumbers_spec {S : SigScheme} (cfg : SrvCfg S) (ce : Exts) (lvl : Level) :
    Numbers cfg ce (srvNumbers cfg ce { Opts.default with level := lvl }).1
      (srvNumbers cfg ce { Opts.default with level := lvl }).2 lvl := by
  -- block size
  have hb : ∃ u o, srvBlock cfg ce Exts.empty { Opts.default with level := lvl } = (u, o) ∧
      (∀ e, e ≠ .blockSize → u e = none) ∧ o = { Opts.default with level := lvl, blockSize := o.blockSize } ∧
      ((u .blockSize = none ∧ o.blockSize = 512 ∧ ∀ n, Spec.requested ce .blockSize 65535 = some n → n < 512) ∨
        ∃ n, Spec.requested ce .blockSize 65535 = some n ∧ (512 ≤ n ∨ cfg.maxBlock < n) ∧
          o.blockSize = min n cfg.maxBlock ∧ u .blockSize = some (decimal (min n cfg.maxBlock))) := by
    unfold srvBlock Spec.requested
    cases ce .blockSize with
    | none => exact ⟨_, _, rfl, fun _ _ => rfl, rfl, .inl ⟨rfl, rfl, by simp⟩⟩
    | some t =>
      simp only [Option.bind_some]
      generalize hn : (parseUInt 65535 t).getD 0 = n
      split
      · rename_i h
        have := getD_pos hn (by omega)
        refine ⟨_, _, rfl, fun e he => by simp [Exts.insert, he, Exts.empty], rfl, .inr ⟨n, this, .inl h.1, ?_⟩⟩
        simp [Exts.insert, Nat.min_eq_left h.2]
      · split
        · rename_i h1 h2
          have := getD_pos hn (by omega)
          refine ⟨_, _, rfl, fun e he => by simp [Exts.insert, he, Exts.empty], rfl, .inr ⟨n, this, .inr h2, ?_⟩⟩
          simp [Exts.insert, Nat.min_eq_right (Nat.le_of_lt h2)]
        · rename_i h1 h2
          refine ⟨_, _, rfl, fun _ _ => rfl, rfl, .inl ⟨rfl, rfl, ?_⟩⟩
          intro m hm
          rw [hm] at hn
          simp at hn
          omega
  obtain ⟨u1, o1, e1, f1, g1, h1⟩ := hb
  -- window size
  have hw : ∃ u o, srvWindow cfg ce u1 o1 = (u, o) ∧
      (∀ e, e ≠ .windowSize → u e = u1 e) ∧ o = { o1 with window := o.window } ∧
      ((u .windowSize = none ∧ o.window = 1 ∧ ∀ n, Spec.requested ce .windowSize 65535 = some n → n < 1) ∨
        ∃ n, Spec.requested ce .windowSize 65535 = some n ∧ (1 ≤ n ∨ cfg.maxWindow < n) ∧
          o.window = min n cfg.maxWindow ∧ u .windowSize = some (decimal (min n cfg.maxWindow))) := by
    have hu : u1 .windowSize = none := f1 _ (by simp)
    have ho : o1.window = 1 := by rw [g1]; rfl
    unfold srvWindow Spec.requested
    cases ce .windowSize with
    | none => exact ⟨_, _, rfl, fun _ _ => rfl, rfl, .inl ⟨hu, ho, by simp⟩⟩
    | some t =>
      simp only [Option.bind_some]
      generalize hn : (parseUInt 65535 t).getD 0 = n
      split
      · rename_i h
        have := getD_pos hn (by omega)
        refine ⟨_, _, rfl, fun e he => by simp [Exts.insert, he], rfl, .inr ⟨n, this, .inl h.1, ?_⟩⟩
        simp [Exts.insert, Nat.min_eq_left h.2]
      · split
        · rename_i h1 h2
          have := getD_pos hn (by omega)
          refine ⟨_, _, rfl, fun e he => by simp [Exts.insert, he], rfl, .inr ⟨n, this, .inr h2, ?_⟩⟩
          simp [Exts.insert, Nat.min_eq_right (Nat.le_of_lt h2)]
        · rename_i h1 h2
          refine ⟨_, _, rfl, fun _ _ => rfl, rfl, .inl ⟨hu, ho, ?_⟩⟩
          intro m hm
          rw [hm] at hn
          simp at hn
          omega
  obtain ⟨u2, o2, e2, f2, g2, h2⟩ := hw
  -- timeout
  have ht : ∃ u o, srvTimeout cfg ce u2 o2 = (u, o) ∧
      (∀ e, e ≠ .timeout → u e = u2 e) ∧ o = { o2 with retry := o.retry } ∧
      ((u .timeout = none ∧ o.retry = 80 ∧
          ∀ n, Spec.requested ce .timeout 255 = some n → ¬ (1 ≤ n ∧ n ≤ cfg.requestTimeout / 1000)) ∨
        ∃ n, Spec.requested ce .timeout 255 = some n ∧ 1 ≤ n ∧ n ≤ cfg.requestTimeout / 1000 ∧
          o.retry = n * 1000 ∧ u .timeout = some (decimal n)) := by
    have hu : u2 .timeout = none := by rw [f2 _ (by simp)]; exact f1 _ (by simp)
    have ho : o2.retry = 80 := by rw [g2, g1]; rfl
    unfold srvTimeout Spec.requested
    cases ce .timeout with
    | none => exact ⟨_, _, rfl, fun _ _ => rfl, rfl, .inl ⟨hu, ho, by simp⟩⟩
    | some t =>
      simp only [Option.bind_some]
      generalize hn : (parseUInt 255 t).getD 0 = n
      split
      · rename_i h
        have := getD_pos hn (by omega)
        refine ⟨_, _, rfl, fun e he => by simp [Exts.insert, he], rfl, .inr ⟨n, this, h.1, h.2, ?_⟩⟩
        simp [Exts.insert]
      · rename_i h
        refine ⟨_, _, rfl, fun _ _ => rfl, rfl, .inl ⟨hu, ho, ?_⟩⟩
        intro m hm
        rw [hm] at hn
        simp at hn
        subst hn
        exact h
  obtain ⟨u3, o3, e3, f3, g3, h3⟩ := ht
  have hs : ∃ u o, srvSize ce u3 o3 = (u, o) ∧
      (∀ e, e ≠ .transferSize → u e = u3 e) ∧ o = { o3 with fileSize := o.fileSize } ∧
      ((u .transferSize = none ∧ o.fileSize = none ∧ Spec.requested ce .transferSize (2 ^ 64 - 1) = none) ∨
        ∃ n, Spec.requested ce .transferSize (2 ^ 64 - 1) = some n ∧ o.fileSize = some n ∧
          u .transferSize = some (decimal n)) := by
    have hu : u3 .transferSize = none := by
      rw [f3 _ (by simp), f2 _ (by simp)]; exact f1 _ (by simp)
    have ho : o3.fileSize = none := by rw [g3, g2, g1]; rfl
    unfold srvSize Spec.requested
    cases ce .transferSize with
    | none => exact ⟨_, _, rfl, fun _ _ => rfl, rfl, .inl ⟨hu, ho, by simp⟩⟩
    | some t =>
      simp only [Option.bind_some]
      cases hp : parseUInt (2 ^ 64 - 1) t with
      | none => exact ⟨_, _, rfl, fun _ _ => rfl, rfl, .inl ⟨hu, ho, rfl⟩⟩
      | some n =>
        exact ⟨_, _, rfl, fun e he => by simp [Exts.insert, he], rfl, .inr ⟨n, rfl, rfl, by simp [Exts.insert]⟩⟩
  obtain ⟨u4, o4, e4, f4, g4, h4⟩ := hs
  have heq : srvNumbers cfg ce { Opts.default with level := lvl } = (u4, o4) := by
    unfold srvNumbers
    simp only [e1, e2, e3, e4]
  rw [heq]
  show Numbers cfg ce u4 o4 lvl
  have q1 : o4.blockSize = o1.blockSize := by rw [g4, g3, g2]
  have q2 : o4.window = o2.window := by rw [g4, g3]
  have q3 : o4.retry = o3.retry := by rw [g4]
  have q4 : o4.level = lvl := by rw [g4, g3, g2, g1]
  refine ⟨?_, ?_, ?_, h4, q4, ?_⟩
  · rw [f4 _ (by simp), f3 _ (by simp), f2 _ (by simp), q1]; exact h1
  · rw [f4 _ (by simp), f3 _ (by simp), q2]; exact h2
  · rw [f4 _ (by simp), q3]; exact h3
  · refine ⟨?_, ?_, ?_, ?_⟩ <;>
      (rw [f4 _ (by simp), f3 _ (by simp), f2 _ (by simp)]; exact f1 _ (by simp))

/-- The level the server uses for a requested one. -/
def srvLevel : Level → Level
  | .data | .optionalData => .data
  | .protocol | .optionalProtocol => .protocol
  | .full => .full
  | .none => .none

/-- Inversion of the server's option parser. -/
theorem srvParse_ok {S : SigScheme} {cfg : SrvCfg S} {session : Bytes} {ce : Exts} {lvl : Level}
    {u : Exts} {o : Opts} {k : Option SessionKeys}
    (h : srvParse cfg session ce { Opts.default with level := lvl } = .ok (u, o, k)) :
    ∃ u1 o1 cl, Numbers cfg ce u1 o1 lvl ∧ optParse (ce .encryptionLevel) Level.parse = .ok cl ∧
      (cfg.requireFull = true → lvl = .full) ∧
      ((cl.getD .none = .none ∧ cfg.authorized = none ∧ u = u1 ∧ o = o1 ∧ k = none) ∨
       (∃ l remote auth, cl = some l ∧ l ≠ .none ∧ (l = .full → lvl = .full) ∧
          optParse (ce .sessionPublicKey) (decodeKey 32) = .ok (some remote) ∧ checkAuth S ce remote = .ok auth ∧
          (∀ ks, cfg.authorized = some ks → ∃ a, auth = some a ∧ a ∈ ks) ∧
          u = srvKeys cfg session auth (u1.insert .encryptionLevel (srvLevel l).text) ∧
          o = { o1 with level := srvLevel l } ∧ k = some ⟨session, remote⟩)) := by
  have hN := srvNumbers_spec cfg ce lvl
  have heq : srvParse cfg session ce { Opts.default with level := lvl } =
      (match optParse (ce .encryptionLevel) Level.parse with
      | .error x => .error x
      | .ok clientLevel =>
        if cfg.requireFull = true ∧ (srvNumbers cfg ce { Opts.default with level := lvl }).2.level ≠ .full then
          .error (.serverRequired .full)
        else
          match clientLevel.getD .none with
          | .none => match cfg.authorized with
            | none => .ok ((srvNumbers cfg ce { Opts.default with level := lvl }).1,
                (srvNumbers cfg ce { Opts.default with level := lvl }).2, none)
            | some _ => .error (.serverRequired .data)
          | .full =>
            if (srvNumbers cfg ce { Opts.default with level := lvl }).2.level ≠ .full then
              .error (.invalidExtension .encryptionLevel)
            else srvParse.go cfg session ce (srvNumbers cfg ce { Opts.default with level := lvl }).1
              { (srvNumbers cfg ce { Opts.default with level := lvl }).2 with level := .full } clientLevel
          | .data | .optionalData => srvParse.go cfg session ce (srvNumbers cfg ce { Opts.default with level := lvl }).1
              { (srvNumbers cfg ce { Opts.default with level := lvl }).2 with level := .data } clientLevel
          | .protocol | .optionalProtocol =>
            srvParse.go cfg session ce (srvNumbers cfg ce { Opts.default with level := lvl }).1
              { (srvNumbers cfg ce { Opts.default with level := lvl }).2 with level := .protocol } clientLevel) := rfl
  rw [heq] at h
  clear heq
  generalize srvNumbers cfg ce { Opts.default with level := lvl } = p at *
  obtain ⟨u1, o1⟩ := p
  simp only at hN h
  have hl := hN.level
  cases hcl : optParse (ce .encryptionLevel) Level.parse with
  | error x => rw [hcl] at h; cases h
  | ok cl =>
    rw [hcl] at h
    simp only at h
    by_cases hreq : cfg.requireFull = true ∧ o1.level ≠ .full
    · rw [if_pos hreq] at h; cases h
    · rw [if_neg hreq] at h
      have hreq' : cfg.requireFull = true → lvl = .full := by
        intro hr
        rw [← hl]
        exact Classical.byContradiction fun hc => hreq ⟨hr, hc⟩
      refine ⟨u1, o1, cl, hN, rfl, hreq', ?_⟩
      -- the common tail
      have tail : ∀ l, l ≠ .none → cl = some l → (l = .full → lvl = .full) →
          srvParse.go cfg session ce u1 { o1 with level := srvLevel l } cl = .ok (u, o, k) →
          ∃ l remote auth, cl = some l ∧ l ≠ .none ∧ (l = .full → lvl = .full) ∧
          optParse (ce .sessionPublicKey) (decodeKey 32) = .ok (some remote) ∧ checkAuth S ce remote = .ok auth ∧
          (∀ ks, cfg.authorized = some ks → ∃ a, auth = some a ∧ a ∈ ks) ∧
          u = srvKeys cfg session auth (u1.insert .encryptionLevel (srvLevel l).text) ∧
          o = { o1 with level := srvLevel l } ∧ k = some ⟨session, remote⟩ := by
        intro l hne hcl hfull hgo
        unfold srvParse.go at hgo
        rw [hcl] at hgo
        simp only [Option.isSome_some, if_true] at hgo
        cases hses : optParse (ce .sessionPublicKey) (decodeKey 32) with
        | error x => rw [hses] at hgo; cases hgo
        | ok s =>
          rw [hses] at hgo
          cases s with
          | none => cases hgo
          | some remote =>
            simp only at hgo
            cases hca : checkAuth S ce remote with
            | error x => rw [hca] at hgo; cases hgo
            | ok auth =>
              rw [hca] at hgo
              simp only at hgo
              refine ⟨l, remote, auth, hcl, hne, hfull, rfl, hca, ?_⟩
              cases hau : cfg.authorized with
              | none =>
                rw [hau] at hgo
                simp only [Except.ok.injEq, Prod.mk.injEq] at hgo
                obtain ⟨rfl, rfl, rfl⟩ := hgo
                exact ⟨by simp, rfl, rfl, rfl⟩
              | some ks =>
                rw [hau] at hgo
                cases auth with
                | none => cases hgo
                | some a =>
                  simp only at hgo
                  split at hgo
                  · rename_i hm
                    simp only [Except.ok.injEq, Prod.mk.injEq] at hgo
                    obtain ⟨rfl, rfl, rfl⟩ := hgo
                    exact ⟨fun ks' hks => ⟨a, rfl, by cases hks; exact hm⟩, rfl, rfl, rfl⟩
                  · cases hgo
      cases cl with
      | none =>
        simp only [Option.getD_none] at h
        left
        cases hau : cfg.authorized with
        | some ks => rw [hau] at h; cases h
        | none =>
          rw [hau] at h
          simp only [Except.ok.injEq, Prod.mk.injEq] at h
          exact ⟨rfl, rfl, h.1.symm, h.2.1.symm, h.2.2.symm⟩
      | some l =>
        simp only [Option.getD_some] at h
        cases l with
        | none =>
          left
          simp only at h
          cases hau : cfg.authorized with
          | some ks => rw [hau] at h; cases h
          | none =>
            rw [hau] at h
            simp only [Except.ok.injEq, Prod.mk.injEq] at h
            exact ⟨rfl, rfl, h.1.symm, h.2.1.symm, h.2.2.symm⟩
        | full =>
          right
          simp only at h
          by_cases hf : o1.level ≠ .full
          · rw [if_pos hf] at h; cases h
          · rw [if_neg hf] at h
            have : lvl = .full := by rw [← hl]; exact Classical.not_not.mp hf
            exact tail .full (by simp) rfl (fun _ => this) h
        | data => right; exact tail .data (by simp) rfl (by simp) h
        | optionalData => right; exact tail .optionalData (by simp) rfl (by simp) h
        | protocol => right; exact tail .protocol (by simp) rfl (by simp) h
        | optionalProtocol => right; exact tail .optionalProtocol (by simp) rfl (by simp) h

theorem optParse_ok_some {v : Option Bytes} {f : Bytes → Option α} {a : α}
    (h : optParse v f = .ok (some a)) : ∃ t, v = some t ∧ f t = some a := by
  unfold optParse at h
  cases v with
  | none => simp at h
  | some t =>
    simp only at h
    cases hf : f t with
    | none => rw [hf] at h; cases h
    | some b => rw [hf] at h; simp at h; exact ⟨t, rfl, by rw [hf, h]⟩

theorem optParse_ok_none {v : Option Bytes} {f : Bytes → Option α} (h : optParse v f = .ok none) : v = none := by
  unfold optParse at h
  cases v with
  | none => rfl
  | some t =>
    simp only at h
    cases hf : f t <;> rw [hf] at h <;> simp at h

theorem checkAuth_ok_some {S : SigScheme} {e : Exts} {session k : Bytes} (h : checkAuth S e session = .ok (some k)) :
    ∃ t ts sig, e .authPublicKey = some t ∧ decodeVerifyingKey S.point t = some k ∧ e .signature = some ts ∧
      decodeSignature ts = some sig ∧ S.verify k session sig = true := by
  unfold checkAuth at h
  split at h
  · cases h
  · cases h
  · rename_i k' hk
    obtain ⟨t, ht, hd⟩ := optParse_ok_some hk
    split at h
    · cases h
    · cases h
    · rename_i sig hs
      obtain ⟨ts, hts, hds⟩ := optParse_ok_some hs
      split at h
      · rename_i hv
        simp only [Except.ok.injEq, Option.some.injEq] at h
        subst h
        exact ⟨t, ts, sig, ht, hd, hts, hds, hv⟩
      · cases h

theorem checkAuth_ok_none {S : SigScheme} {e : Exts} {session : Bytes} (h : checkAuth S e session = .ok none) :
    e .authPublicKey = none := by
  unfold checkAuth at h
  split at h
  · cases h
  · rename_i hk
    exact optParse_ok_none hk
  · split at h
    · cases h
    · cases h
    · split at h <;> cases h

end Tftp

import Verif.Multi
import Verif.ServerTimers
import Verif.ServerAdmit
import Verif.ClientSecure
import Verif.EndLive
/-
C77: with an authorized key list files are reached through signed sessions only. The theorems are about the life of one address
(Life.lean); by C50 this is what each client of the single and of the multi threaded server sees.
-/
namespace Tftp

/-- The datagram is a request which carries a listed public key and a signature, valid under this key, of the session key
`remote`, also given in the request. -/
def Spec.Signed {S} (v : Srv S) (ks : List Bytes) (dg remote : Bytes) : Prop :=
  ∃ write r key sig keyText sigText remoteText, v.requestOf dg = some (write, r) ∧
    r.exts .authPublicKey = some keyText ∧ decodeVerifyingKey S.point keyText = some key ∧ key ∈ ks ∧
    r.exts .signature = some sigText ∧ decodeSignature sigText = some sig ∧
    r.exts .sessionPublicKey = some remoteText ∧ decodeKey 32 remoteText = some remote ∧ S.verify key remote sig = true

/-- The bytes `x` are part of the plaintext of the datagram, which (but for at most four bytes in front) opens under `A`. -/
def Spec.SealedWith (A : Aead) (dg x : Bytes) : Prop :=
  ∃ head ct tag nonce plain, dg = head ++ ct ++ tag ++ nonce ∧ head.length ≤ 4 ∧ tag.length = 16 ∧ nonce.length = 24 ∧
    A.dec nonce ct tag = some plain ∧ x <:+: plain

theorem decrypt_split {A : Aead} {b p : Bytes} {k : Nat} (h : decrypt A b k = .ok p) :
    ∃ head ct tag nonce plain, b = head ++ ct ++ tag ++ nonce ∧ head.length = k ∧ tag.length = 16 ∧ nonce.length = 24 ∧
      A.dec nonce ct tag = some plain ∧ p = head ++ plain := by
  unfold decrypt at h
  split at h
  · rename_i nonce tag hn ht
    simp only at h
    split at h
    · cases h
    · rename_i hk
      split at h
      · rename_i plain hp
        cases h
        unfold rsliceToArray at hn ht
        split at hn
        · split at ht
          · rename_i l1 l2
            simp only [Nat.sub_zero, Option.some.injEq] at hn ht
            simp only [List.length_take] at hk
            refine ⟨_, _, tag, nonce, plain, ?_, ?_, ?_, ?_, hp, rfl⟩
            · rw [List.take_append_drop, ← hn, ← ht]
              have e1 : List.take (b.length - 24 - 16) b ++ List.take 16 (List.drop (b.length - 16 - 24) b) = List.take (b.length - 24) b := by
                have e : b.length - 24 - 16 = b.length - 16 - 24 := by omega
                have e' : b.length - 24 = b.length - 16 - 24 + 16 := by omega
                rw [e, e', List.take_add]
              rw [e1, List.take_of_length_le (l := List.drop _ _) (by simp; omega), List.take_append_drop]
            · simp; omega
            · rw [← ht]; simp; omega
            · rw [← hn]; simp; omega
          · cases ht
        · cases hn
      · cases h
  · cases h

theorem removePadding_take {p r : Bytes} (h : removePadding p = some r) : ∃ n, r = p.take n := by
  unfold removePadding at h
  split at h
  · cases h
  · split at h
    · cases h; exact ⟨_, rfl⟩
    · split at h
      · cases h; exact ⟨_, rfl⟩
      · cases h

theorem fromBytes_data_drop {b : Bytes} {blk data} (h : Packet.fromBytes b = .ok (.data blk data)) : data = b.drop 4 := by
  have hd := packetType_of_data h
  unfold packetType at hd
  unfold Packet.fromBytes at h
  cases hr : readU16 b with
  | none => rw [hr] at hd; cases hd
  | some op =>
    rw [hr] at h hd
    simp only [Option.bind_some] at hd
    simp only [hd] at h
    split at h
    · cases h
    · cases h; rw [List.drop_drop]

/-- Data taken from a datagram at a mandatory level was sealed. -/
theorem data_sealed {A : Aead} {level : Level} (hl : level = .data ∨ level = .protocol ∨ level = .full) {dg b : Bytes}
    (h : unprotect A level dg = .ok b) {blk data} (hp : Packet.fromBytes b = .ok (.data blk data)) : Spec.SealedWith A dg data := by
  have hdrop := fromBytes_data_drop hp
  have whole : openPacket A dg = .ok b → Spec.SealedWith A dg data := by
    intro h
    unfold openPacket at h
    split at h
    · rename_i p hd
      split at h
      · rename_i r hr
        cases h
        obtain ⟨head, ct, tag, nonce, plain, e1, e2, e3, e4, e5, e6⟩ := decrypt_split hd
        have : head = [] := List.length_eq_zero_iff.mp e2
        subst this
        obtain ⟨n, rfl⟩ := removePadding_take hr
        refine ⟨[], ct, tag, nonce, plain, e1, by simp, e3, e4, e5, ?_⟩
        rw [hdrop, e6, List.nil_append]
        exact (List.drop_suffix _ _).isInfix.trans (List.take_prefix _ _).isInfix
      · cases h
    · cases h
    · cases h
  rcases hl with rfl | rfl | rfl
  · simp only [unprotect] at h
    split at h
    · obtain ⟨head, ct, tag, nonce, plain, e1, e2, e3, e4, e5, e6⟩ := decrypt_split (show decrypt A dg 4 = .ok b from h)
      refine ⟨head, ct, tag, nonce, plain, e1, by omega, e3, e4, e5, ?_⟩
      rw [hdrop, e6, ← e2, List.drop_left]
      exact List.infix_refl _
    · rename_i hn
      cases h
      exact absurd (packetType_of_data hp) hn
  · exact whole h
  · exact whole h

/-! ### Nothing without a signature -/

theorem parse_signed {S} {v : Srv S} {ks : List Bytes} (hks : v.cfg.authorized = some ks) {dg session : Bytes} {write : Bool} {r : Request}
    {used : Exts} {o : Opts} {keys : Option SessionKeys} (h1 : v.requestOf dg = some (write, r))
    (h2 : srvParse v.cfg session r.exts { Opts.default with level := v.arrived dg } = .ok (used, o, keys)) :
    ∃ remote, Spec.Signed v ks dg remote ∧ keys = some ⟨session, remote⟩ := by
  obtain ⟨u1, o1, cl, -, -, -, hcase⟩ := srvParse_ok h2
  rcases hcase with ⟨-, hn, -⟩ | ⟨l, remote, auth, -, -, -, hses, hauth, hin, -, -, hk⟩
  · rw [hks] at hn; cases hn
  · obtain ⟨k, rfl, ha⟩ := hin ks hks
    obtain ⟨t, ts, sig, g1, g2, g3, g4, g5⟩ := checkAuth_ok_some hauth
    obtain ⟨rt, g6, g7⟩ := optParse_ok_some hses
    exact ⟨remote, ⟨write, r, k, sig, t, ts, rt, h1, g1, g2, ha, g3, g4, g6, g7, g5⟩, hk⟩

theorem newConn_unsigned {S} (v : Srv S) (ks : List Bytes) (hks : v.cfg.authorized = some ks) (t : Nat) (dg : Bytes) (io : NewIo)
    (hno : ∀ remote, ¬ Spec.Signed v ks dg remote) :
    v.newConn t dg io = ⟨[], .error .notRequest⟩ ∨
    v.newConn t dg io = ⟨v.replyError (v.openRequest dg).1 { Opts.default with level := v.arrived dg } io.nonce .illegalOperation, .error .options⟩ := by
  have key : ∀ write r used o keys, v.requestOf dg = some (write, r) →
      srvParse v.cfg io.sessionPub r.exts { Opts.default with level := v.arrived dg } = .ok (used, o, keys) → False := by
    intro write r used o keys h1 h2
    obtain ⟨remote, h, -⟩ := parse_signed hks h1 h2
    exact hno remote h
  unfold Srv.newConn
  simp only
  split <;> rename_i hp
  · split
    · exact .inr rfl
    · rename_i hs; exact (key true _ _ _ _ (by unfold Srv.requestOf; rw [hp]) hs).elim
  · split
    · exact .inr rfl
    · rename_i hs; exact (key false _ _ _ _ (by unfold Srv.requestOf; rw [hp]) hs).elim
  · exact .inl rfl

/-- The refusal: an error packet without text, in the clear or sealed with a handshake cipher of the server. -/
def Spec.IsRefusal {S} (v : Srv S) (d : Bytes) : Prop :=
  d = (Packet.error .illegalOperation []).toBytes ∨
    ∃ pub nonce size, sealPacket (v.handshake pub) nonce (Packet.error .illegalOperation []).toBytes size = .ok d

theorem openRequest_cipher {S} {v : Srv S} {dg : Bytes} {A : Aead} (h : (v.openRequest dg).1 = some A) : ∃ pub, A = v.handshake pub := by
  unfold Srv.openRequest at h
  repeat' split at h
  all_goals first | (cases h; done) | (cases h; exact ⟨_, rfl⟩)

theorem replyError_refusal {S} {v : Srv S} {dg : Bytes} {o : Opts} {n : Nat} {d : Bytes}
    (h : d ∈ v.replyError (v.openRequest dg).1 o n .illegalOperation) : Spec.IsRefusal v d := by
  unfold Srv.replyError at h
  split at h
  · cases h
  · split at h
    · exact .inl (List.mem_singleton.mp h)
    · rename_i A hA
      obtain ⟨pub, rfl⟩ := openRequest_cipher hA
      split at h
      · rename_i d' hd
        rw [List.mem_singleton] at h
        subst h
        exact .inr ⟨pub, _, _, hd⟩
      · cases h

/-- **C77**: a request without a valid signature under a listed key never reaches a file: the file system is not asked. -/
theorem c77_no_file_access {S} (v : Srv S) (ks : List Bytes) (hks : v.cfg.authorized = some ks) (t : Nat) (dg : Bytes) (io : NewIo)
    (hno : ∀ remote, ¬ Spec.Signed v ks dg remote) (openRead : Bytes → Option (Option Nat × Bytes)) (openWrite : Bytes → Bool) :
    v.newConn t dg { io with openRead := openRead, openWrite := openWrite } = v.newConn t dg io := by
  unfold Srv.newConn
  have key : ∀ write r used o keys, v.requestOf dg = some (write, r) →
      srvParse v.cfg io.sessionPub r.exts { Opts.default with level := v.arrived dg } = .ok (used, o, keys) → False := by
    intro write r used o keys h1 h2
    obtain ⟨remote, h, -⟩ := parse_signed hks h1 h2
    exact hno remote h
  simp only
  split <;> rename_i hp
  · split
    · rfl
    · rename_i hs; exact (key true _ _ _ _ (by unfold Srv.requestOf; rw [hp]) hs).elim
  · split
    · rfl
    · rename_i hs; exact (key false _ _ _ _ (by unfold Srv.requestOf; rw [hp]) hs).elim
  · rfl

/-- **C77**: an address whose requests are not signed under a listed key has no connection and gets nothing but refusals. -/
theorem c77_only_refusals {S} (v : Srv S) (ks : List Bytes) (hks : v.cfg.authorized = some ks) (stops : Bool) (es : List LifeEv)
    (hno : ∀ t dg io, LifeEv.start t dg io ∈ es → ∀ remote, ¬ Spec.Signed v ks dg remote) :
    (v.lifeRun stops none es).1 = none ∧ ∀ d ∈ (v.lifeRun stops none es).2, Spec.IsRefusal v d := by
  induction es with
  | nil => exact ⟨rfl, by intro d hd; cases hd⟩
  | cons e es ih =>
    have ih := ih fun t dg io h => hno t dg io (List.mem_cons_of_mem _ h)
    have one : (v.lifeStep stops none e).1 = none ∧ ∀ d ∈ (v.lifeStep stops none e).2, Spec.IsRefusal v d := by
      cases e with
      | start t dg io =>
        rcases newConn_unsigned v ks hks t dg io (hno t dg io (by simp)) with h | h
        · simp only [Srv.lifeStep, h]; exact ⟨trivial, by intro d hd; cases hd⟩
        · simp only [Srv.lifeStep, h]; exact ⟨trivial, fun d hd => replyError_refusal hd⟩
      | tick t io => exact ⟨rfl, by intro d hd; cases hd⟩
      | recv t dg io => exact ⟨rfl, by intro d hd; cases hd⟩
      | check t io => exact ⟨rfl, by intro d hd; cases hd⟩
      | drop => exact ⟨rfl, by intro d hd; cases hd⟩
    simp only [Srv.lifeRun]
    rw [one.1]
    refine ⟨ih.1, ?_⟩
    intro d hd
    rcases List.mem_append.mp hd with h | h
    · exact one.2 d h
    · exact ih.2 d h

/-! ### What is stored -/

/-- `c0` became `c` in the events `es` without being dropped. -/
inductive Spec.Alive {S} (v : Srv S) (stops : Bool) (c0 : Conn) : List LifeEv → Conn → Prop
  | refl : Spec.Alive v stops c0 [] c0
  | step {es c e c' out} : Spec.Alive v stops c0 es c → v.lifeStep stops (some c) e = (some c', out) → Spec.Alive v stops c0 (es ++ [e]) c'

/-- Every connection goes back to a request, and has not been dropped since. -/
theorem life_origin {S} (v : Srv S) (stops : Bool) (es : List LifeEv) : ∀ c, (v.lifeRun stops none es).1 = some c →
    ∃ before t dg io c0 out0 after, es = before ++ .start t dg io :: after ∧ (v.lifeRun stops none before).1 = none ∧
      (v.newConn t dg io).result = .ok (c0, out0) ∧ Spec.Alive v stops c0 after c := by
  induction es using snoc_induction with
  | nil => intro c h; cases h
  | snoc es e ih =>
    intro c h
    rw [lifeRun_append] at h
    simp only [Srv.lifeRun] at h
    cases h0 : (v.lifeRun stops none es).1 with
    | none =>
      rw [h0] at h
      cases e with
      | start t dg io =>
        simp only [Srv.lifeStep] at h
        split at h
        · rename_i c0 out0 hr
          simp only [Option.some.injEq] at h
          subst h
          exact ⟨es, t, dg, io, c0, out0, [], rfl, h0, hr, .refl⟩
        · cases h
      | tick t io => cases h
      | recv t dg io => cases h
      | check t io => cases h
      | drop => cases h
    | some c1 =>
      rw [h0] at h
      obtain ⟨before, t, dg, io, c0, out0, after, rfl, g1, g2, g3⟩ := ih c1 h0
      refine ⟨before, t, dg, io, c0, out0, after ++ [e], by simp, g1, g2, .step (out := (v.lifeStep stops (some c1) e).2) g3 ?_⟩
      rw [← h]

/-- `x` is put together from pieces sealed with `A` in datagrams which reached the connection in the events `es`. -/
def Spec.Received (A : Aead) (es : List LifeEv) (x : Bytes) : Prop :=
  ∃ pieces : List Bytes, x = pieces.flatten ∧
    ∀ p ∈ pieces, ∃ t dg io, LifeEv.recv t dg io ∈ es ∧ Spec.SealedWith A dg p

theorem Spec.Received.mono {A : Aead} {es : List LifeEv} {x : Bytes} (h : Spec.Received A es x) (e : LifeEv) :
    Spec.Received A (es ++ [e]) x := by
  obtain ⟨pieces, h1, h2⟩ := h
  exact ⟨pieces, h1, fun p hp => by
    obtain ⟨t, dg, io, h3, h4⟩ := h2 p hp
    exact ⟨t, dg, io, List.mem_append_left _ h3, h4⟩⟩

theorem wrapWrite_out (w : Writer) (block : Nat) (data : Bytes) (io : WriteIo) :
    (wrapWrite w block data io).1.out = w.out ∨ ∃ d, d <+: data ∧ (wrapWrite w block data io).1.out = w.out ++ d := by
  have h : (wrapWrite w block data io).1 = (w.writeBlock block data io).1 := by
    unfold wrapWrite; simp only; split <;> rfl
  rw [h]
  unfold Writer.writeBlock
  simp only
  split
  · exact .inl rfl
  · split
    · exact .inl rfl
    · cases io with
      | all => exact .inr ⟨data, List.prefix_refl _, rfl⟩
      | upTo k => exact .inr ⟨data.take k, List.take_prefix _ _, rfl⟩
      | err => exact .inl rfl

/-- A datagram changes the file only by appending the beginning of the data in it. -/
theorem serverRecv_out (c : Cfg) (s : RecvSt) (dg : Bytes) (io : WriteIo) (sendOk : Bool) (nonce : Nat) :
    (serverRecv c s dg io sendOk nonce).1.w.out = s.w.out ∨
    ∃ b blk data d, c.codec.dec dg = some b ∧ Packet.fromBytes b = .ok (.data blk data) ∧ d <+: data ∧
      (serverRecv c s dg io sendOk nonce).1.w.out = s.w.out ++ d := by
  cases hd : c.codec.dec dg with
  | none => left; unfold serverRecv; rw [hd]
  | some b =>
    cases hp : Packet.fromBytes b with
    | error x => left; unfold serverRecv; rw [hd]; simp only [hp]
    | ok p =>
      cases p with
      | data blk data =>
        have : (serverRecv c s dg io sendOk nonce).1.w = (wrapWrite s.w blk.toNat data io).1 := by
          unfold serverRecv; rw [hd]; simp only [hp]
          repeat' split
          all_goals rfl
        rw [this]
        rcases wrapWrite_out s.w blk.toNat data io with h | ⟨d, h1, h2⟩
        · exact .inl h
        · exact .inr ⟨b, blk, data, d, rfl, hp, h1, h2⟩
      | _ => left; unfold serverRecv; rw [hd]; simp only [hp]

theorem kept_stored {S} {v : Srv S} {stops : Bool} {c0 : Conn} {A : Aead} (hA : c0.enc = some A)
    (hl : c0.opts.level = .data ∨ c0.opts.level = .protocol ∨ c0.opts.level = .full)
    (h0 : ∀ s, c0.side = .writer s → s.w.out = []) {es : List LifeEv} {c : Conn} (h : Spec.Alive v stops c0 es c) :
    c.enc = some A ∧ c.opts = c0.opts ∧ ∀ s, c.side = .writer s → Spec.Received A es s.w.out := by
  induction h with
  | refl => exact ⟨hA, rfl, fun s hs => ⟨[], h0 s hs, by intro p hp; cases hp⟩⟩
  | @step es c e c' out _ hstep ih =>
    obtain ⟨i1, i2, i3⟩ := ih
    have same : c' = c → c'.enc = some A ∧ c'.opts = c0.opts ∧ ∀ s, c'.side = .writer s → Spec.Received A (es ++ [e]) s.w.out := by
      rintro rfl
      exact ⟨i1, i2, fun s hs => (i3 s hs).mono e⟩
    cases e with
    | start t dg io => simp only [Srv.lifeStep, Prod.mk.injEq, Option.some.injEq] at hstep; exact same hstep.1.symm
    | tick t io =>
      simp only [Srv.lifeStep] at hstep
      split at hstep
      · simp only [Prod.mk.injEq, Option.some.injEq] at hstep
        obtain ⟨rfl, -⟩ := hstep
        unfold Srv.sendBlock
        cases hs : c.side with
        | writer s => refine ⟨i1, i2, fun s' hs' => (i3 s' ?_).mono _⟩; rw [hs]; exact (hs.symm.trans hs')
        | reader s =>
          simp only
          refine ⟨?_, ?_, by intro s' hs'; cases hs'⟩
          · split <;> exact i1
          · split <;> exact i2
      · simp only [Prod.mk.injEq, Option.some.injEq] at hstep; exact same hstep.1.symm
    | check t io =>
      simp only [Srv.lifeStep, Prod.mk.injEq] at hstep
      split at hstep
      · cases hstep.1
      · exact same (Option.some.inj hstep.1).symm
    | drop => simp only [Srv.lifeStep, Prod.mk.injEq, reduceCtorEq, false_and] at hstep
    | recv t dg io =>
      simp only [Srv.lifeStep] at hstep
      split at hstep
      · simp only [Prod.mk.injEq, Option.some.injEq] at hstep; exact same hstep.1.symm
      · simp only [Prod.mk.injEq, Option.some.injEq] at hstep
        obtain ⟨rfl, -⟩ := hstep
        unfold Srv.handle
        cases hs : c.side with
        | reader s =>
          simp only
          split <;> exact ⟨i1, i2, by intro s' hs'; cases hs'⟩
        | writer s =>
          simp only
          refine ⟨i1, i2, fun s' hs' => ?_⟩
          cases hs'
          rcases serverRecv_out (v.transfer c) s dg io.file io.sendOk io.nonce with h | ⟨b, blk, data, d, g1, g2, g3, g4⟩
          · rw [h]; exact (i3 s hs).mono _
          · rw [g4]
            obtain ⟨pieces, p1, p2⟩ := (i3 s hs).mono (.recv t dg io)
            refine ⟨pieces ++ [d], by simp [p1], ?_⟩
            intro p hp
            rcases List.mem_append.mp hp with hp | hp
            · exact p2 p hp
            · rw [List.mem_singleton] at hp
              subst hp
              refine ⟨t, dg, io, by simp, ?_⟩
              simp only [Srv.transfer, i1, Codec.level] at g1
              split at g1
              · rename_i b' hb
                cases g1
                obtain ⟨head, ct, tag, nonce, plain, e1, e2, e3, e4, e5, e6⟩ := data_sealed (by rw [i2]; exact hl) hb g2
                exact ⟨head, ct, tag, nonce, plain, e1, e2, e3, e4, e5, g3.isInfix.trans e6⟩
              · cases g1

/-- **C77**: with an authorized key list every connection goes back to a request with a listed key which signed the session key
`remote`, and whatever the connection has stored came in datagrams sealed with the cipher of this session, received since. -/
theorem c77_stored {S} (v : Srv S) (ks : List Bytes) (hks : v.cfg.authorized = some ks) (stops : Bool) (es : List LifeEv) (c : Conn)
    (hc : (v.lifeRun stops none es).1 = some c) :
    ∃ before t dg io after remote, es = before ++ .start t dg io :: after ∧ Spec.Signed v ks dg remote ∧
      c.enc = some (v.session ⟨io.sessionPub, remote⟩) ∧
      ∀ s, c.side = .writer s → Spec.Received (v.session ⟨io.sessionPub, remote⟩) after s.w.out := by
  obtain ⟨before, t, dg, io, c0, out0, after, rfl, g1, g2, g3⟩ := life_origin v stops es c hc
  obtain ⟨write, r, used, keys, name, kind, f1, f2, -, f4, f5, -⟩ := newConn_ok g2
  obtain ⟨u0, o0, hp, -⟩ := srvNegotiate_ok f2
  obtain ⟨remote, hsig, hk⟩ := parse_signed hks f1 hp
  obtain ⟨_, _, _, _, _, _, _, _, _, _, _, _, _, _, _, hl⟩ :=
    c23_authorized_keys v.cfg ks hks io.sessionPub _ r.exts kind used c0.opts keys f2
  have he : c0.enc = some (v.session ⟨io.sessionPub, remote⟩) := by rw [f4, hk]
  obtain ⟨k1, -, k3⟩ := kept_stored he hl (by
    intro s hs
    split at f5
    · obtain ⟨-, -, f5⟩ := f5
      rw [hs] at f5; cases f5; rfl
    · obtain ⟨size, file, -, -, f5⟩ := f5
      rw [hs] at f5; cases f5) g3
  exact ⟨before, t, dg, io, after, remote, rfl, hsig, k1, k3⟩

/-- The datagram opens under `A`, as a whole, to the data packet with this block number, whose data begins with `x`. -/
def Spec.SealedBlock (A : Aead) (dg : Bytes) (number : Nat) (x : Bytes) : Prop :=
  ∃ b blk data, openPacket A dg = .ok b ∧ Packet.fromBytes b = .ok (.data blk data) ∧ blk.toNat = number ∧ x <+: data

/-- The pieces are those of block 1, 2, ..., each from a datagram sealed with its number. -/
def Spec.Numbered (A : Aead) (es : List LifeEv) (pieces : List Bytes) : Prop :=
  ∀ i x, pieces[i]? = some x → ∃ t dg io, LifeEv.recv t dg io ∈ es ∧ Spec.SealedBlock A dg ((i + 1) % 65536) x

theorem Spec.Numbered.mono {A : Aead} {es : List LifeEv} {ps : List Bytes} (h : Spec.Numbered A es ps) (e : LifeEv) :
    Spec.Numbered A (es ++ [e]) ps := by
  intro i x hx
  obtain ⟨t, dg, io, h1, h2⟩ := h i x hx
  exact ⟨t, dg, io, List.mem_append_left _ h1, h2⟩

/-- Content, count and mapper of a writer. -/
def Spec.WroteAll (A : Aead) (es : List LifeEv) (w : Writer) : Prop :=
  ∃ pieces, w.out = pieces.flatten ∧ w.written = pieces.length ∧ 1 ≤ w.mapper.cur ∧ w.mapper.cur ≤ w.mapper.next ∧ Spec.Numbered A es pieces

theorem wrapWrite_numbered {w : Writer} (h1 : 1 ≤ w.mapper.cur) (h2 : w.mapper.cur ≤ w.mapper.next) (block : Nat) (hb : block < 65536)
    (data : Bytes) (io : WriteIo) :
    1 ≤ (wrapWrite w block data io).1.mapper.cur ∧ (wrapWrite w block data io).1.mapper.cur ≤ (wrapWrite w block data io).1.mapper.next ∧
    ((wrapWrite w block data io).1.out = w.out ∧ (wrapWrite w block data io).1.written = w.written ∨
     ∃ d, d <+: data ∧ (wrapWrite w block data io).1.out = w.out ++ d ∧ (wrapWrite w block data io).1.written = w.written + 1 ∧
      block = (w.written + 1) % 65536) := by
  have h : (wrapWrite w block data io).1 = (w.writeBlock block data io).1 := by
    unfold wrapWrite; simp only; split <;> rfl
  rw [h]
  obtain ⟨e1, e2, e3⟩ := w.mapper.index_mod block h1 h2 hb
  unfold Writer.writeBlock
  generalize w.mapper.index block = mi at *
  obtain ⟨m, i⟩ := mi
  simp only at *
  split
  · exact ⟨e2, e3, .inl ⟨rfl, rfl⟩⟩
  · split
    · exact ⟨e2, e3, .inl ⟨rfl, rfl⟩⟩
    · have hi : i = w.written + 1 := by omega
      subst hi
      cases io with
      | all => exact ⟨e2, e3, .inr ⟨data, List.prefix_refl _, rfl, rfl, e1.symm⟩⟩
      | upTo k => exact ⟨e2, e3, .inr ⟨data.take k, List.take_prefix _ _, rfl, rfl, e1.symm⟩⟩
      | err => exact ⟨e2, e3, .inl ⟨rfl, rfl⟩⟩

theorem serverRecv_numbered {c : Cfg} {s : RecvSt} {A : Aead} {es : List LifeEv} (hdec : ∀ dg b, c.codec.dec dg = some b → openPacket A dg = .ok b)
    (h : Spec.WroteAll A es s.w) (t : Nat) (dg : Bytes) (io : RecvIo) :
    Spec.WroteAll A (es ++ [.recv t dg io]) (serverRecv c s dg io.file io.sendOk io.nonce).1.w := by
  obtain ⟨pieces, p1, p2, p3, p4, p5⟩ := h
  have same : (serverRecv c s dg io.file io.sendOk io.nonce).1.w = s.w → Spec.WroteAll A (es ++ [.recv t dg io]) (serverRecv c s dg io.file io.sendOk io.nonce).1.w := by
    intro h; rw [h]; exact ⟨pieces, p1, p2, p3, p4, p5.mono _⟩
  cases hd : c.codec.dec dg with
  | none => exact same (by unfold serverRecv; rw [hd])
  | some b =>
    cases hp : Packet.fromBytes b with
    | error x => exact same (by unfold serverRecv; rw [hd]; simp only [hp])
    | ok p =>
      cases p with
      | data blk data =>
        have hw : (serverRecv c s dg io.file io.sendOk io.nonce).1.w = (wrapWrite s.w blk.toNat data io.file).1 := by
          unfold serverRecv; rw [hd]; simp only [hp]
          repeat' split
          all_goals rfl
        rw [hw]
        obtain ⟨q1, q2, q3⟩ := wrapWrite_numbered p3 p4 blk.toNat blk.toNat_lt data io.file
        rcases q3 with ⟨q3, q4⟩ | ⟨d, q3, q4, q5, q6⟩
        · exact ⟨pieces, by rw [q3, p1], by rw [q4, p2], q1, q2, p5.mono _⟩
        · refine ⟨pieces ++ [d], by rw [q4, p1]; simp, by rw [q5, p2]; simp, q1, q2, ?_⟩
          intro i x hx
          by_cases hi : i < pieces.length
          · rw [List.getElem?_append_left hi] at hx
            exact p5.mono _ i x hx
          · rw [List.getElem?_append_right (by omega), List.getElem?_singleton] at hx
            split at hx
            · cases hx
              have : i = pieces.length := by omega
              subst this
              exact ⟨t, dg, io, by simp, b, blk, data, hdec dg b hd, hp, by rw [q6, p2], q3⟩
            · cases hx
      | _ => exact same (by unfold serverRecv; rw [hd]; simp only [hp])

theorem kept_numbered {S} {v : Srv S} {stops : Bool} {c0 : Conn} {A : Aead} (hA : c0.enc = some A)
    (hl : c0.opts.level = .protocol ∨ c0.opts.level = .full)
    (h0 : ∀ s, c0.side = .writer s → s.w = Writer.new) {es : List LifeEv} {c : Conn} (h : Spec.Alive v stops c0 es c) :
    c.enc = some A ∧ c.opts = c0.opts ∧ ∀ s, c.side = .writer s → Spec.WroteAll A es s.w := by
  induction h with
  | refl =>
    refine ⟨hA, rfl, fun s hs => ⟨[], ?_⟩⟩
    rw [h0 s hs]
    exact ⟨rfl, rfl, by decide, by decide, by intro i x hx; simp at hx⟩
  | @step es c e c' out _ hstep ih =>
    obtain ⟨i1, i2, i3⟩ := ih
    have keep : ∀ w, Spec.WroteAll A es w → Spec.WroteAll A (es ++ [e]) w := by
      rintro w ⟨pieces, p1, p2, p3, p4, p5⟩
      exact ⟨pieces, p1, p2, p3, p4, p5.mono e⟩
    have same : c' = c → c'.enc = some A ∧ c'.opts = c0.opts ∧ ∀ s, c'.side = .writer s → Spec.WroteAll A (es ++ [e]) s.w := by
      rintro rfl
      exact ⟨i1, i2, fun s hs => keep _ (i3 s hs)⟩
    cases e with
    | start t dg io => simp only [Srv.lifeStep, Prod.mk.injEq, Option.some.injEq] at hstep; exact same hstep.1.symm
    | tick t io =>
      simp only [Srv.lifeStep] at hstep
      split at hstep
      · simp only [Prod.mk.injEq, Option.some.injEq] at hstep
        obtain ⟨rfl, -⟩ := hstep
        unfold Srv.sendBlock
        cases hs : c.side with
        | writer s => refine ⟨i1, i2, fun s' hs' => keep _ (i3 s' ?_)⟩; rw [hs]; exact (hs.symm.trans hs')
        | reader s =>
          simp only
          refine ⟨?_, ?_, by intro s' hs'; cases hs'⟩
          · split <;> exact i1
          · split <;> exact i2
      · simp only [Prod.mk.injEq, Option.some.injEq] at hstep; exact same hstep.1.symm
    | check t io =>
      simp only [Srv.lifeStep, Prod.mk.injEq] at hstep
      split at hstep
      · cases hstep.1
      · exact same (Option.some.inj hstep.1).symm
    | drop => simp only [Srv.lifeStep, Prod.mk.injEq, reduceCtorEq, false_and] at hstep
    | recv t dg io =>
      simp only [Srv.lifeStep] at hstep
      split at hstep
      · simp only [Prod.mk.injEq, Option.some.injEq] at hstep; exact same hstep.1.symm
      · simp only [Prod.mk.injEq, Option.some.injEq] at hstep
        obtain ⟨rfl, -⟩ := hstep
        unfold Srv.handle
        cases hs : c.side with
        | reader s =>
          simp only
          split <;> exact ⟨i1, i2, by intro s' hs'; cases hs'⟩
        | writer s =>
          simp only
          refine ⟨i1, i2, fun s' hs' => ?_⟩
          cases hs'
          refine serverRecv_numbered ?_ (i3 s hs) t dg io
          intro dg b hd
          simp only [Srv.transfer, i1, Codec.level] at hd
          split at hd
          · rename_i b' hb
            cases hd
            rcases hl with hl | hl <;> rw [i2, hl] at hb <;> exact hb
          · cases hd

/-- **C77**: at the levels `protocol` and `full` the stored content is the data of block 1, then of block 2 and so on (numbers modulo
65536), each from a datagram which was sealed with its number under the cipher of the signed session. -/
theorem c77_stored_in_order {S} (v : Srv S) (ks : List Bytes) (hks : v.cfg.authorized = some ks) (stops : Bool) (es : List LifeEv) (c : Conn)
    (hc : (v.lifeRun stops none es).1 = some c) (hl : c.opts.level = .protocol ∨ c.opts.level = .full) :
    ∃ before t dg io after remote, es = before ++ .start t dg io :: after ∧ Spec.Signed v ks dg remote ∧
      ∀ s, c.side = .writer s → ∃ pieces, s.w.out = pieces.flatten ∧ Spec.Numbered (v.session ⟨io.sessionPub, remote⟩) after pieces := by
  obtain ⟨before, t, dg, io, c0, out0, after, rfl, g1, g2, g3⟩ := life_origin v stops es c hc
  obtain ⟨write, r, used, keys, name, kind, f1, f2, -, f4, f5, -⟩ := newConn_ok g2
  obtain ⟨u0, o0, hp, -⟩ := srvNegotiate_ok f2
  obtain ⟨remote, hsig, hk⟩ := parse_signed hks f1 hp
  obtain ⟨_, _, _, _, _, _, _, _, _, _, _, _, _, _, _, hl0⟩ :=
    c23_authorized_keys v.cfg ks hks io.sessionPub _ r.exts kind used c0.opts keys f2
  have he : c0.enc = some (v.session ⟨io.sessionPub, remote⟩) := by rw [f4, hk]
  have hfresh : ∀ s, c0.side = .writer s → s.w = Writer.new := by
    intro s hs
    split at f5
    · obtain ⟨-, -, f5⟩ := f5
      rw [hs] at f5; cases f5; rfl
    · obtain ⟨size, file, -, -, f5⟩ := f5
      rw [hs] at f5; cases f5
  obtain ⟨-, k2, -⟩ := kept_stored he hl0 (fun s hs => by rw [hfresh s hs]; rfl) g3
  rw [k2] at hl
  obtain ⟨-, -, k3⟩ := kept_numbered he hl hfresh g3
  refine ⟨before, t, dg, io, after, remote, rfl, hsig, fun s hs => ?_⟩
  obtain ⟨pieces, p1, -, -, -, p5⟩ := k3 s hs
  exact ⟨pieces, p1, p5⟩

/-! ### What is sent -/

/-- The datagram is sealed with `A`, but for a header of at most four bytes. -/
def Spec.SentSealed (A : Aead) (d : Bytes) : Prop :=
  ∃ head nonce plain, head.length ≤ 4 ∧ d = head ++ (A.enc nonce plain).1 ++ (A.enc nonce plain).2 ++ nonce

/-- The datagram is a packet without file data, in the clear or sealed with a handshake cipher of the server. -/
def Spec.NoData {S} (v : Srv S) (d : Bytes) : Prop :=
  ∃ p : Packet, (∀ b x, p ≠ .data b x) ∧
    (d = p.toBytes ∨ ∃ pub nonce size, sealPacket (v.handshake pub) nonce p.toBytes size = .ok d)

theorem sealPacket_form {A : Aead} {nonce b d : Bytes} {size : Nat} (h : sealPacket A nonce b size = .ok d) : Spec.SentSealed A d := by
  unfold sealPacket at h
  split at h
  · cases h
  · rename_i p _
    rw [encrypt_ok _ _ _ _ (Nat.zero_le _)] at h
    cases h
    exact ⟨[], nonce, p, by simp, by simp⟩

theorem protect_form {A : Aead} {level : Level} (hl : level = .data ∨ level = .protocol ∨ level = .full) {size : Nat} {nonce d : Bytes}
    {p : Packet} (h : protect A level size nonce p.toBytes = .ok d) :
    Spec.SentSealed A d ∨ (∀ b x, p ≠ .data b x) ∧ d = p.toBytes := by
  rcases hl with rfl | rfl | rfl
  · simp only [protect] at h
    split at h
    · left
      rename_i ht
      unfold sealData at h
      have h4 : 4 ≤ p.toBytes.length := by
        cases p with
        | data b x => simp [Packet.toBytes, be16]
        | _ => exact absurd ht (not_data_type _ (by intro b x hh; cases hh))
      rw [encrypt_ok _ _ _ _ h4] at h
      cases h
      exact ⟨_, nonce, _, List.length_take_le _ _, rfl⟩
    · rename_i ht
      cases h
      refine .inr ⟨?_, rfl⟩
      rintro b x rfl
      exact ht (by simp [packetType, Packet.toBytes, be16, readU16, PacketType.repr]; decide)
  · exact .inl (sealPacket_form h)
  · exact .inl (sealPacket_form h)

theorem emit_form {S} {v : Srv S} {c : Conn} {A : Aead} (hA : c.enc = some A)
    (hl : c.opts.level = .data ∨ c.opts.level = .protocol ∨ c.opts.level = .full) {n : Nat} {p : Packet} {d : Bytes}
    (h : (v.transfer c).codec.enc n p.toBytes = some d) : Spec.SentSealed A d ∨ Spec.NoData v d := by
  simp only [Srv.transfer, hA, Codec.level] at h
  split at h
  · rename_i d' hd
    cases h
    rcases protect_form hl hd with h | ⟨h1, h2⟩
    · exact .inl h
    · exact .inr ⟨p, h1, .inl h2⟩
  · cases h

theorem kept_sent {S} {v : Srv S} {c : Conn} {A : Aead} (hA : c.enc = some A)
    (hl : c.opts.level = .data ∨ c.opts.level = .protocol ∨ c.opts.level = .full) (stops : Bool) (e : LifeEv) :
    ∀ d ∈ (v.lifeStep stops (some c) e).2, Spec.SentSealed A d ∨ Spec.NoData v d := by
  intro d hd
  cases e with
  | start t dg io => cases hd
  | drop => cases hd
  | tick t io =>
    simp only [Srv.lifeStep] at hd
    split at hd
    · rw [Option.mem_toList] at hd
      unfold Srv.sendBlock at hd
      cases hs : c.side with
      | writer s => rw [hs] at hd; cases hd
      | reader s =>
        simp only [hs, Option.map_eq_some_iff] at hd
        obtain ⟨x, hx, rfl⟩ := hd
        have go : ∀ c' : Conn, c'.enc = some A → c'.opts = c.opts →
            (serverSendTick (v.transfer c') s (c.retryDue t) io.fail io.net io.nonce).2 = some x → Spec.SentSealed A x.bytes ∨ Spec.NoData v x.bytes := by
          intro c' e1 e2 hx
          unfold serverSendTick at hx
          simp only at hx
          split at hx
          · cases hx
          all_goals
            simp only at hx
            split at hx
            · exact emit_form e1 (by rw [e2]; exact hl) (emit_enc hx)
            · cases hx
        split at hx
        · exact go _ hA rfl hx
        · exact go _ hA rfl hx
    · cases hd
  | recv t dg io =>
    simp only [Srv.lifeStep] at hd
    split at hd
    · cases hd
    · rw [Option.mem_toList] at hd
      unfold Srv.handle at hd
      cases hs : c.side with
      | reader s =>
        simp only [hs] at hd
        split at hd <;> cases hd
      | writer s =>
        simp only [hs, Option.map_eq_some_iff] at hd
        obtain ⟨x, hx, rfl⟩ := hd
        obtain ⟨p, h1, -⟩ := serverRecv_emit hx
        exact emit_form hA hl (emit_enc h1)
  | check t io =>
    simp only [Srv.lifeStep, Option.mem_toList] at hd
    unfold Srv.timeout at hd
    split at hd
    · cases hd
    · split at hd
      · cases hd
      · simp only at hd
        split at hd
        · exact emit_form hA hl hd
        · cases hd

theorem newConn_sent {S} (v : Srv S) (t : Nat) (dg : Bytes) (io : NewIo) :
    (∀ d ∈ (v.newConn t dg io).replies, Spec.NoData v d) ∧
    ∀ c out, (v.newConn t dg io).result = .ok (c, out) → ∀ d ∈ out, Spec.NoData v d := by
  have rep : ∀ o n code, ∀ d ∈ v.replyError (v.openRequest dg).1 o n code, Spec.NoData v d := by
    intro o n code d h
    unfold Srv.replyError at h
    split at h
    · cases h
    · split at h
      · exact ⟨_, (by intro b x h; cases h), .inl (List.mem_singleton.mp h)⟩
      · rename_i A hA
        obtain ⟨pub, rfl⟩ := openRequest_cipher hA
        split at h
        · rename_i d' hd
          rw [List.mem_singleton] at h
          subst h
          exact ⟨_, (by intro b x h; cases h), .inr ⟨pub, _, _, hd⟩⟩
        · cases h
  refine ⟨?_, ?_⟩
  · generalize hn : v.newConn t dg io = res
    unfold Srv.newConn at hn
    simp only at hn
    have e1 : Spec.NoData v (Packet.error .diskFull []).toBytes := ⟨_, (by intro b x h; cases h), .inl rfl⟩
    have e2 : Spec.NoData v (Packet.error .accessViolation []).toBytes := ⟨_, (by intro b x h; cases h), .inl rfl⟩
    generalize (Packet.error .diskFull []).toBytes = x1 at hn e1
    generalize (Packet.error .accessViolation []).toBytes = x2 at hn e2
    generalize v.replyError (v.openRequest dg).1 = f at hn rep
    repeat' split at hn
    all_goals
      subst hn
      intro d hd
      simp only [List.mem_singleton, List.not_mem_nil] at hd
    all_goals first
      | exact rep _ _ _ d hd
      | (subst hd; assumption)
  · intro c out h d hd
    obtain ⟨write, r, used, keys, name, kind, -, -, -, -, -, -, -, -, -, f⟩ := newConn_ok h
    have go : ∀ p : Packet, (∀ b x, p ≠ .data b x) →
        (v.transfer { c with enc := (v.openRequest dg).1 }).codec.enc io.nonce p.toBytes = some d → Spec.NoData v d := by
      intro p hp he
      cases hA : (v.openRequest dg).1 with
      | none => simp only [Srv.transfer, hA, Codec.plain, Option.some.injEq] at he; exact ⟨p, hp, .inl he.symm⟩
      | some A =>
        obtain ⟨pub, rfl⟩ := openRequest_cipher hA
        simp only [Srv.transfer, hA, Codec.level] at he
        split at he
        · rename_i d' hd'
          cases he
          unfold protect at hd'
          split at hd'
          · exact ⟨p, hp, .inr ⟨pub, _, _, hd'⟩⟩
          · exact ⟨p, hp, .inr ⟨pub, _, _, hd'⟩⟩
          · rw [if_neg (not_data_type p hp)] at hd'; cases hd'; exact ⟨p, hp, .inl rfl⟩
          all_goals cases hd'; exact ⟨p, hp, .inl rfl⟩
        · cases he
    split at f
    · split at f
      · obtain ⟨d', h1, rfl⟩ := f
        rw [List.mem_singleton] at hd; subst hd
        exact go _ (by intro b x h; cases h) h1
      · subst f; cases hd
    · obtain ⟨d', h1, rfl⟩ := f
      rw [List.mem_singleton] at hd; subst hd
      exact go _ (by intro b x h; cases h) h1

/-- **C77**: with an authorized key list file data is sent to nobody in the clear: whatever is sent to an address is a packet
without file data, or sealed with the cipher of a session whose key was signed, under a listed key, in a request from this address. -/
theorem c77_sent {S} (v : Srv S) (ks : List Bytes) (hks : v.cfg.authorized = some ks) (stops : Bool) (es : List LifeEv) :
    ∀ d ∈ (v.lifeRun stops none es).2, Spec.NoData v d ∨
      ∃ t dg io remote, LifeEv.start t dg io ∈ es ∧ Spec.Signed v ks dg remote ∧ Spec.SentSealed (v.session ⟨io.sessionPub, remote⟩) d := by
  induction es using snoc_induction with
  | nil => intro d hd; cases hd
  | snoc es e ih =>
    intro d hd
    rw [lifeRun_append] at hd
    simp only [Srv.lifeRun, List.append_nil] at hd
    rcases List.mem_append.mp hd with h | h
    · rcases ih d h with h | ⟨t, dg, io, remote, h1, h2, h3⟩
      · exact .inl h
      · exact .inr ⟨t, dg, io, remote, List.mem_append_left _ h1, h2, h3⟩
    · cases hc : (v.lifeRun stops none es).1 with
      | none =>
        rw [hc] at h
        left
        cases e with
        | start t dg io =>
          simp only [Srv.lifeStep] at h
          split at h
          · rename_i hr; exact (newConn_sent v t dg io).2 _ _ hr d h
          · exact (newConn_sent v t dg io).1 d h
        | _ => cases h
      | some c =>
        rw [hc] at h
        obtain ⟨before, t, dg, io, c0, out0, after, rfl, -, g2, g3⟩ := life_origin v stops es c hc
        obtain ⟨write, r, used, keys, name, kind, f1, f2, -, f4, f5, -⟩ := newConn_ok g2
        obtain ⟨u0, o0, hp, -⟩ := srvNegotiate_ok f2
        obtain ⟨remote, hsig, hk⟩ := parse_signed hks f1 hp
        obtain ⟨_, _, _, _, _, _, _, _, _, _, _, _, _, _, _, hl⟩ :=
          c23_authorized_keys v.cfg ks hks io.sessionPub _ r.exts kind used c0.opts keys f2
        have he : c0.enc = some (v.session ⟨io.sessionPub, remote⟩) := by rw [f4, hk]
        obtain ⟨k1, k2, -⟩ := kept_stored he hl (by
          intro s hs
          split at f5
          · obtain ⟨-, -, f5⟩ := f5
            rw [hs] at f5; cases f5; rfl
          · obtain ⟨size, file, -, -, f5⟩ := f5
            rw [hs] at f5; cases f5) g3
        rcases kept_sent k1 (by rw [k2]; exact hl) stops e d h with h | h
        · exact .inr ⟨t, dg, io, remote, by simp, hsig, h⟩
        · exact .inl h

/-! ### Both servers -/

theorem own_mem {a : Addr} {evs : List SrvEv} {es : List LifeEv} (h : Spec.OwnAll a evs es) :
    (∀ t dg io, LifeEv.start t dg io ∈ es → SrvEv.main t a dg io ∈ evs) ∧
    ∀ t dg io, LifeEv.recv t dg io ∈ es → SrvEv.client t a dg io ∈ evs := by
  induction h with
  | nil => exact ⟨(by intro t dg io h; cases h), (by intro t dg io h; cases h)⟩
  | cons h _ ih =>
    refine ⟨fun t dg io hm => ?_, fun t dg io hm => ?_⟩ <;> rcases List.mem_append.mp hm with hm | hm
    · cases h <;> simp_all
    · exact List.mem_cons_of_mem _ (ih.1 t dg io hm)
    · cases h <;> simp_all
    · exact List.mem_cons_of_mem _ (ih.2 t dg io hm)

theorem mown_mem {a : Addr} {evs : List MEv} {es : List LifeEv} (h : Spec.MOwnAll a evs es) :
    (∀ t dg io, LifeEv.start t dg io ∈ es → MEv.main t a dg io ∈ evs) ∧
    ∀ t dg io, LifeEv.recv t dg io ∈ es → MEv.thread a (.dgram t dg io) ∈ evs := by
  induction h with
  | nil => exact ⟨(by intro t dg io h; cases h), (by intro t dg io h; cases h)⟩
  | cons h _ ih =>
    refine ⟨fun t dg io hm => ?_, fun t dg io hm => ?_⟩ <;> rcases List.mem_append.mp hm with hm | hm
    · cases h with
      | thread e pc => cases e <;> simp only [ThreadEv.life] at hm <;> (try split at hm) <;> simp_all
      | _ => simp_all
    · exact List.mem_cons_of_mem _ (ih.1 t dg io hm)
    · cases h with
      | thread e pc => cases e <;> simp only [ThreadEv.life] at hm <;> (try split at hm) <;> simp_all
      | _ => simp_all
    · exact List.mem_cons_of_mem _ (ih.2 t dg io hm)

/-- `x` is put together from pieces of the plaintexts of datagrams, each of which `from'` delivered and which opens under `A`. -/
def Spec.From (A : Aead) (from' : Bytes → Prop) (x : Bytes) : Prop :=
  ∃ pieces : List Bytes, x = pieces.flatten ∧ ∀ p ∈ pieces, ∃ dg, from' dg ∧ Spec.SealedWith A dg p

/-- **C77** (partial), single threaded server, any clients and any history: what an upload has stored, and what is sent, is
tied to a signed request from the same address. Missing: the signature does not cover the rest of the request
(`c77_request_replay`, `c77_credentials_reused`) and level `data` does not cover the block number (`c77_block_number`). -/
theorem c77_single_thread_partial {S} (v : Srv S) (ks : List Bytes) (hks : v.cfg.authorized = some ks) (evs : List SrvEv) (a : Addr) :
    (∀ c s, (v.run ⟨[], 0⟩ evs).conn a = some c → c.side = .writer s →
      ∃ t dg io remote, SrvEv.main t a dg io ∈ evs ∧ Spec.Signed v ks dg remote ∧
        Spec.From (v.session ⟨io.sessionPub, remote⟩) (fun d => ∃ t io, SrvEv.client t a d io ∈ evs) s.w.out) ∧
    ∀ d ∈ sentTo a (v.sent ⟨[], 0⟩ evs), Spec.NoData v d ∨
      ∃ t dg io remote, SrvEv.main t a dg io ∈ evs ∧ Spec.Signed v ks dg remote ∧ Spec.SentSealed (v.session ⟨io.sessionPub, remote⟩) d := by
  obtain ⟨es, h1, h2⟩ := c50_single_thread v evs a
  obtain ⟨m1, m2⟩ := own_mem h1
  refine ⟨?_, ?_⟩
  · intro c s hc hs
    have := congrArg Prod.fst h2
    simp only [hc] at this
    obtain ⟨before, t, dg, io, after, remote, rfl, g1, -, g3⟩ := c77_stored v ks hks false es c this
    obtain ⟨pieces, g4, g5⟩ := g3 s hs
    refine ⟨t, dg, io, remote, m1 t dg io (by simp), g1, pieces, g4, fun p hp => ?_⟩
    obtain ⟨t', dg', io', g6, g7⟩ := g5 p hp
    exact ⟨dg', ⟨t', io', m2 t' dg' io' (by simp [g6])⟩, g7⟩
  · intro d hd
    rcases c77_sent v ks hks false es d (by rw [h2]; exact hd) with h | ⟨t, dg, io, remote, g1, g2, g3⟩
    · exact .inl h
    · exact .inr ⟨t, dg, io, remote, m1 t dg io g1, g2, g3⟩

/-- **C77** (partial), multi threaded server. -/
theorem c77_multi_thread_partial {S} (v : Srv S) (ks : List Bytes) (hks : v.cfg.authorized = some ks) (evs : List MEv) (a : Addr) :
    (∀ c s, (v.mrun MSt.init evs).1.conn a = some c → c.side = .writer s →
      ∃ t dg io remote, MEv.main t a dg io ∈ evs ∧ Spec.Signed v ks dg remote ∧
        Spec.From (v.session ⟨io.sessionPub, remote⟩) (fun d => ∃ t io, MEv.thread a (.dgram t d io) ∈ evs) s.w.out) ∧
    ∀ d ∈ sentTo a (v.mrun MSt.init evs).2, Spec.NoData v d ∨
      ∃ t dg io remote, MEv.main t a dg io ∈ evs ∧ Spec.Signed v ks dg remote ∧ Spec.SentSealed (v.session ⟨io.sessionPub, remote⟩) d := by
  obtain ⟨es, h1, h2⟩ := c50_multi_thread v evs a
  obtain ⟨m1, m2⟩ := mown_mem h1
  refine ⟨?_, ?_⟩
  · intro c s hc hs
    have := congrArg Prod.fst h2
    simp only [hc] at this
    obtain ⟨before, t, dg, io, after, remote, rfl, g1, -, g3⟩ := c77_stored v ks hks true es c this
    obtain ⟨pieces, g4, g5⟩ := g3 s hs
    refine ⟨t, dg, io, remote, m1 t dg io (by simp), g1, pieces, g4, fun p hp => ?_⟩
    obtain ⟨t', dg', io', g6, g7⟩ := g5 p hp
    exact ⟨dg', ⟨t', io', m2 t' dg' io' (by simp [g6])⟩, g7⟩
  · intro d hd
    rcases c77_sent v ks hks true es d (by rw [h2]; exact hd) with h | ⟨t, dg, io, remote, g1, g2, g3⟩
    · exact .inl h
    · exact .inr ⟨t, dg, io, remote, m1 t dg io g1, g2, g3⟩

/-- **C77**: an address none of whose requests is signed under a listed key: single threaded server. -/
theorem c77_unsigned_single {S} (v : Srv S) (ks : List Bytes) (hks : v.cfg.authorized = some ks) (evs : List SrvEv) (a : Addr)
    (hno : ∀ t dg io, SrvEv.main t a dg io ∈ evs → ∀ remote, ¬ Spec.Signed v ks dg remote) :
    (v.run ⟨[], 0⟩ evs).conn a = none ∧ ∀ d ∈ sentTo a (v.sent ⟨[], 0⟩ evs), Spec.IsRefusal v d := by
  obtain ⟨es, h1, h2⟩ := c50_single_thread v evs a
  have := c77_only_refusals v ks hks false es fun t dg io h => hno t dg io ((own_mem h1).1 t dg io h)
  rw [h2] at this
  exact this

/-- ... and multi threaded server. -/
theorem c77_unsigned_multi {S} (v : Srv S) (ks : List Bytes) (hks : v.cfg.authorized = some ks) (evs : List MEv) (a : Addr)
    (hno : ∀ t dg io, MEv.main t a dg io ∈ evs → ∀ remote, ¬ Spec.Signed v ks dg remote) :
    (v.mrun MSt.init evs).1.conn a = none ∧ ∀ d ∈ sentTo a (v.mrun MSt.init evs).2, Spec.IsRefusal v d := by
  obtain ⟨es, h1, h2⟩ := c50_multi_thread v evs a
  have := c77_only_refusals v ks hks true es fun t dg io h => hno t dg io ((mown_mem h1).1 t dg io h)
  rw [h2] at this
  exact this

/-! ### What is missing -/

theorem srvParse_session {S} (cfg : SrvCfg S) (session session' : Bytes) (ce : Exts) (o : Opts) {u : Exts} {o' : Opts} {k : Option SessionKeys}
    (h : srvParse cfg session ce o = .ok (u, o', k)) : ∃ u' k', srvParse cfg session' ce o = .ok (u', o', k') := by
  have go : ∀ u0 o0 cl, srvParse.go cfg session ce u0 o0 cl = .ok (u, o', k) → ∃ u' k', srvParse.go cfg session' ce u0 o0 cl = .ok (u', o', k') := by
    intro u0 o0 cl h
    unfold srvParse.go at h ⊢
    simp only at h ⊢
    cases h1 : optParse (ce .sessionPublicKey) (decodeKey 32) with
    | error x => rw [h1] at h; cases h
    | ok remote =>
      cases remote with
      | none => rw [h1] at h; cases h
      | some remote =>
        simp only [h1] at h ⊢
        cases h2 : checkAuth S ce remote with
        | error x => rw [h2] at h; cases h
        | ok auth =>
          simp only [h2] at h ⊢
          cases h3 : cfg.authorized with
          | none => simp only [h3] at h ⊢; cases h; exact ⟨_, _, rfl⟩
          | some ks =>
            cases auth with
            | none => simp only [h3] at h; cases h
            | some a =>
              simp only [h3] at h ⊢
              split at h
              · rename_i hk
                rw [if_pos hk]
                cases h; exact ⟨_, _, rfl⟩
              · cases h
  unfold srvParse at h ⊢
  simp only at h ⊢
  cases h1 : optParse (ce .encryptionLevel) Level.parse with
  | error x => rw [h1] at h; cases h
  | ok cl =>
    simp only [h1] at h ⊢
    split at h
    · cases h
    · rename_i hq
      rw [if_neg hq]
      cases h2 : cl.getD .none <;> simp only [h2] at h ⊢
      case none =>
        cases h3 : cfg.authorized <;> simp only [h3] at h ⊢
        · cases h; exact ⟨_, _, rfl⟩
        · cases h
      case full =>
        split at h
        · cases h
        · rename_i hf
          rw [if_neg hf]
          exact go _ _ _ h
      all_goals exact go _ _ _ h

/-- Finding (C77): the signature covers the session key only, not the operation, the file name or the time. Whoever has seen one
accepted request which was not encrypted can send its options again, at any time, from any address, with any other file name and the
other operation, and is accepted: an upload request then creates the file, or empties it if the server allows overwriting. -/
theorem c77_credentials_reused {S} (v : Srv S) (t : Nat) (dg : Bytes) (io : NewIo) (write : Bool) (r : Request) (y : Conn × List Bytes)
    (hplain : (v.openRequest dg).1 = none) (hr : v.requestOf dg = some (write, r)) (hok : (v.newConn t dg io).result = .ok y)
    (t' : Nat) (dg' : Bytes) (io' : NewIo) (name name' : Bytes) (hplain' : (v.openRequest dg').1 = none)
    (hr' : v.requestOf dg' = some (true, ⟨name, r.exts⟩)) (hn : normalizeName name = some name')
    (hio : io'.openWrite name' = true ∧ io'.socketOk = true ∧ io'.sendOk = true) :
    ∃ c' out', (v.newConn t' dg' io').result = .ok (c', out') ∧ c'.side = .writer ⟨Writer.new, 0, 0, false, false⟩ := by
  obtain ⟨c, out⟩ := y
  obtain ⟨write0, r0, used, keys, nm, kind, f1, f2, -⟩ := newConn_ok hok
  rw [hr] at f1
  cases f1
  obtain ⟨u0, o0, hp, hsz, -⟩ := srvNegotiate_ok f2
  have harr : v.arrived dg = .none := by unfold Srv.arrived; rw [hplain]; rfl
  rw [harr] at hp
  obtain ⟨u', k', hp'⟩ := srvParse_session v.cfg io.sessionPub io'.sessionPub r.exts _ hp
  have hreq : Packet.fromBytes (v.openRequest dg').2 = .ok (.write ⟨name, r.exts⟩) := by
    unfold Srv.requestOf at hr'
    split at hr'
    · rename_i r1 h1; cases hr'; exact h1
    · cases hr'
    · cases hr'
  have hacc : ∃ z : Conn × List Bytes, v.accept ⟨o0, none, .writer ⟨Writer.new, 0, 0, false, false⟩, t', t', 1⟩ true u' k' io' = some z ∧
      z.1.side = .writer ⟨Writer.new, 0, 0, false, false⟩ := by
    have hsome : ∀ b, (v.transfer ⟨o0, none, .writer ⟨Writer.new, 0, 0, false, false⟩, t', t', 1⟩).codec.enc io'.nonce b = some b := fun _ => rfl
    unfold Srv.accept
    simp only [hio.2.2, if_true, hsome, Option.map_some]
    by_cases hu : u'.isEmpty = true
    · rw [if_pos hu]; exact ⟨_, rfl, rfl⟩
    · rw [if_neg hu]; exact ⟨_, rfl, rfl⟩
  obtain ⟨z, hz, hside⟩ := hacc
  refine ⟨z.1, z.2, ?_, hside⟩
  rw [newConn_write (v := v) (t := t') (dg := dg') (b := (v.openRequest dg').2) (io := io') (hs := none) (r := ⟨name, r.exts⟩) (used := u')
    (o := o0) (keys := k') (name := name') (y := z) (by rw [← hplain']) hreq hp' (by simpa [sizeAllowed] using hsz) hn hio.1 hio.2.1 hz]

/-- Finding (C77): also an encrypted request is accepted again, at any time and from any address without connection. -/
theorem c77_request_replay {S} (v : Srv S) (t t' : Nat) (dg : Bytes) (io : NewIo) (c : Conn) (out : List Bytes)
    (hok : (v.newConn t dg io).result = .ok (c, out)) (s : SrvSt) (a : Addr) (ha : a ∉ s.addrs) (hroom : s.clients.length < v.maxConn) :
    (v.step s (.main t' a dg io)).1.conn a = some { c with lastUpdated := t', lastSent := t' } := by
  have hnew : (v.newConn t' dg io).result = .ok ({ c with lastUpdated := t', lastSent := t' }, out) := by
    have acc : ∀ o hs side write used keys, (v.accept ⟨o, hs, side, t', t', 1⟩ write used keys io) =
        (v.accept ⟨o, hs, side, t, t, 1⟩ write used keys io).map fun y => ({ y.1 with lastUpdated := t', lastSent := t' }, y.2) := by
      intro o hs side write used keys
      unfold Srv.accept
      simp only [Option.map_map]
      rfl
    unfold Srv.newConn at hok ⊢
    simp only [acc] at hok ⊢
    repeat' split at hok
    all_goals first | (cases hok; done) | skip
    all_goals simp_all
  have h1 : ¬ s.clients.any (fun x => x.1 == a) = true := by
    simp only [List.any_eq_true, beq_iff_eq]
    rintro ⟨x, hx, rfl⟩
    exact ha (List.mem_map.mpr ⟨x, hx, rfl⟩)
  simp only [Srv.step, h1, hnew, show ¬ s.clients.length ≥ v.maxConn by omega, if_false, Bool.false_eq_true]
  show lookup a (insertClient a _ s.clients) = _
  rw [lookup_insert a a _ s.clients (lookup_none fun x hx he => ha (List.mem_map.mpr ⟨x, hx, he⟩)), if_pos rfl]

/-- Finding (C77): at level `data` the header, with the block number, is not covered by the tag: what opens under one header opens
under every other. -/
theorem c77_header_not_covered (A : Aead) (head head' body p : Bytes) (hh : head.length = 4) (hh' : head'.length = 4)
    (h : openData A (head ++ body) = .ok (head ++ p)) : openData A (head' ++ body) = .ok (head' ++ p) := by
  obtain ⟨hd, ct, tag, nonce, plain, e1, e2, e3, e4, e5, e6⟩ := decrypt_split (show decrypt A (head ++ body) 4 = .ok (head ++ p) from h)
  have hb : head = hd ∧ body = ct ++ tag ++ nonce := by
    rw [List.append_assoc, List.append_assoc] at e1
    obtain ⟨h1, h2⟩ := List.append_inj e1 (by omega)
    exact ⟨h1, by rw [h2]; simp⟩
  obtain ⟨rfl, rfl⟩ := hb
  have hp : p = plain := List.append_cancel_left e6
  subst hp
  show decrypt A (head' ++ (ct ++ tag ++ nonce)) 4 = _
  have := decrypt_layout A head' ct tag nonce e3 e4
  rw [hh', e5] at this
  rw [show head' ++ (ct ++ tag ++ nonce) = head' ++ ct ++ tag ++ nonce by simp]
  exact this

theorem handle_sealed_data {S} (v : Srv S) (c : Conn) (A : Aead) (s : RecvSt) (he : c.enc = some A) (hl : c.opts.level = .data)
    (hs : c.side = .writer s) (t : Nat) (io : RecvIo) (blk : UInt16) (body x : Bytes)
    (h : openData A ([0, 3] ++ be16 blk ++ body) = .ok ([0, 3] ++ be16 blk ++ x)) :
    ∃ s', (v.handle c t ([0, 3] ++ be16 blk ++ body) io).1.side = .writer s' ∧ s'.w = (wrapWrite s.w blk.toNat x io.file).1 ∧
      (v.handle c t ([0, 3] ++ be16 blk ++ body) io).1.enc = some A ∧ (v.handle c t ([0, 3] ++ be16 blk ++ body) io).1.opts.level = .data := by
  have hdec : (v.transfer c).codec.dec ([0, 3] ++ be16 blk ++ body) = some (Packet.data blk x).toBytes := by
    have ht : packetType ([0, 3] ++ be16 blk ++ body) = some .data := by
      rw [List.append_assoc]; rfl
    simp only [Srv.transfer, he, Codec.level, hl, unprotect, ht, if_true, h]
    rfl
  have hw : (serverRecv (v.transfer c) s ([0, 3] ++ be16 blk ++ body) io.file io.sendOk io.nonce).1.w = (wrapWrite s.w blk.toNat x io.file).1 := by
    unfold serverRecv
    rw [hdec]
    simp only [c01_round_trip (.data blk x) trivial]
    repeat' split
    all_goals rfl
  unfold Srv.handle
  simp only [hs]
  exact ⟨_, rfl, hw, he, hl⟩

/-- Finding (C77): so somebody who can send datagrams from the client's address but has no key can change what is stored at level
`data`: here the client's first block is stored a second time as the second block. -/
theorem c77_block_number {S} (v : Srv S) (c : Conn) (A : Aead) (s : RecvSt) (he : c.enc = some A) (hl : c.opts.level = .data)
    (hs : c.side = .writer s) (hnew : s.w = Writer.new) (t t' : Nat) (io io' : RecvIo) (hio : io.file = .all ∧ io'.file = .all)
    (body x : Bytes) (h : openData A ([0, 3, 0, 1] ++ body) = .ok ([0, 3, 0, 1] ++ x)) :
    ∃ s', (v.handle (v.handle c t ([0, 3, 0, 1] ++ body) io).1 t' ([0, 3, 0, 2] ++ body) io').1.side = .writer s' ∧
      s'.w.out = x ++ x := by
  obtain ⟨s1, g1, g2, g3, g4⟩ := handle_sealed_data v c A s he hl hs t io 1 body x h
  have h' := c77_header_not_covered A [0, 3, 0, 1] [0, 3, 0, 2] body x rfl rfl h
  obtain ⟨s2, f1, f2, -, -⟩ := handle_sealed_data v _ A s1 g3 g4 g1 t' io' 2 body x h'
  refine ⟨s2, f1, ?_⟩
  rw [f2, g2, hnew, hio.1, hio.2]
  have m1 : Mapper.new.index 1 = (Mapper.new, 1) := by decide
  have m2 : Mapper.new.index 2 = (Mapper.new, 2) := by decide
  simp [wrapWrite, Writer.writeBlock, Writer.new, m1, m2, WriteIo.taken]

/-- Finding (C77): ... and end the transfer with an error packet, which level `data` takes in the clear. -/
theorem c77_plain_error {S} (v : Srv S) (c : Conn) (A : Aead) (s : RecvSt) (he : c.enc = some A) (hl : c.opts.level = .data)
    (hs : c.side = .writer s) (t : Nat) (io : RecvIo) (code : ErrorCode) :
    (v.handle c t (Packet.error code []).toBytes io).1.failed = true := by
  have hdec : (v.transfer c).codec.dec (Packet.error code []).toBytes = some (Packet.error code []).toBytes := by
    have ht := not_data_type (.error code []) (by intro b x h; cases h)
    simp only [Srv.transfer, he, Codec.level, hl, unprotect, if_neg ht]
  unfold Srv.handle
  simp only [hs, Conn.failed, serverRecv, hdec]
  rw [c01_round_trip (.error code []) ⟨by simp, by decide⟩]

end Tftp

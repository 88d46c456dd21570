import Verif.Crash
import Verif.Sizes
/-
C78: what the server says when it refuses a request. The model of the server leaves the texts of its error replies empty
(`Srv.newConn`); here they are as in the code, and this is shown to make no difference to anything but the text.
-/
namespace Tftp
open Spec

/-! ### The texts -/

/-- src/error.rs:223-245 `Display for ExtensionError`; `cause`: the text of the `EncryptionError` inside. -/
def ExtErr.text (cause : Bytes) : ExtErr → Bytes
  | .clientRequired l => ascii "Server does not provide encryption however client requested encryption level " ++ l.text
  | .serverRequired l => ascii "Server requires " ++ l.text ++ ascii " encryption"
  | .invalidPublicKey => ascii "Invalid public key received"
  | .notAuthorized => ascii "Not Authorized"
  | .encoding => ascii "Invalid extension parsing error " ++ cause
  | .invalidExtension e => ascii "Invalid extension " ++ e.name
  | .invalidSignature => ascii "Invalid signature received"

/-- Which `EncryptionError` is reported for malformed values (src/error.rs:303-316 with src/encryption.rs:168-182, 373-396, 446-463): the
level, the session key, the authorization key (whose text is reported as a signature), the signature, in this order
(src/server/extensions.rs:103-106, 155-163, 165-168, 171-175). -/
def encodingCause (S : SigScheme) (e : Exts) : Bytes :=
  match optParse (e .encryptionLevel) Level.parse with
  | .error _ => ascii "Failed to encrypt"
  | .ok _ => match optParse (e .sessionPublicKey) (decodeKey 32) with
    | .error _ => ascii "Failed to decode public key"
    | .ok _ => match optParse (e .authPublicKey) keyBuffer with
      | .error _ => ascii "Failed to decode signature"
      | .ok _ => match optParse (e .authPublicKey) (decodeVerifyingKey S.point) with
        | .error _ => ascii "Failed to decode public key"
        | .ok _ => ascii "Failed to decode signature"

/-- src/lib.rs:55-61 `ensure_size(name, 100)`; if it panics (C29) there is no text. -/
def quoted (name : Bytes) : Bytes := match ensureSize name 100 with
  | .ok x => x
  | _ => []

/-- src/server/connection_builder.rs:336-379 `reply_with_error`, with the text. -/
def Srv.replyText {S} (v : Srv S) (hs : Option Aead) (o : Opts) (nonce : Nat) (code : ErrorCode) (text : Bytes) : List Bytes :=
  if v.cfg.errorToAuthorizedOnly then []
  else match hs with
    | none => [(Packet.error code text).toBytes]
    | some A => match sealPacket A (v.nonce nonce) (Packet.error code text).toBytes o.payload with
      | .ok d => [d]
      | _ => []

/-- The error replies from the main socket with their texts: src/server/single_thread.rs:276-299 (src/server/multi_thread.rs:158-178),
src/server/validation.rs:21-78, src/server/connection_builder.rs:162-177, 248-264. -/
def Srv.answers {S} (v : Srv S) (dg : Bytes) (io : NewIo) : List Bytes :=
  let hs := (v.openRequest dg).1
  let o0 : Opts := { Opts.default with level := v.arrived dg }
  match v.requestOf dg with
  | none => []
  | some (write, r) => match srvParse v.cfg io.sessionPub r.exts o0 with
    | .error x => v.replyText hs o0 io.nonce .illegalOperation (x.text (encodingCause S r.exts))
    | .ok (_, o, _) =>
      if ¬ sizeAllowed v.cfg o then [(Packet.error .diskFull (ascii "Invalid file size received " ++ decimal (o.fileSize.getD 0))).toBytes]
      else match normalizeName r.fileName with
        | none => [(Packet.error .accessViolation (ascii "Invalid file name received " ++ quoted r.fileName)).toBytes]
        | some name =>
          if write then
            if io.openWrite name then [] else v.replyText hs o io.nonce .diskFull (ascii "Unable to write file " ++ quoted r.fileName)
          else match io.openRead name with
            | some _ => []
            | none => v.replyText hs o io.nonce .diskFull (ascii "Unable to read file " ++ quoted r.fileName)

/-! ### Specification -/

/-- Specification: the datagram brings an error with this code and text to a client which shares the cipher of the request, if it was sealed. -/
def Spec.Brings (hs : Option Aead) (b : Bytes) (code : ErrorCode) (text : Bytes) : Prop :=
  match hs with
  | none => Packet.fromBytes b = .ok (.error code text)
  | some A => ∃ p, openPacket A b = .ok p ∧ Packet.fromBytes p = .ok (.error code text)

/-! ### Texts are texts -/

theorem text_append {a b : Bytes} (ha : Text a) (hb : Text b) : Text (a ++ b) := by
  refine ⟨fun h => ?_, ?_⟩
  · rcases List.mem_append.mp h with h | h
    · exact ha.1 h
    · exact hb.1 h
  · rw [utf8Valid_append ha.2]; exact hb.2

theorem u8_bad (l : Bytes) : l.foldl u8Step .bad = .bad := by
  induction l with
  | nil => rfl
  | cons x l ih => simpa [List.foldl_cons, u8Step] using ih

/-- Inside a character only a continuation byte leads on. -/
theorem u8_continue (s : U8St) (c : UInt8) (hs : s ≠ .start) (hc : ¬ (128 ≤ c.toNat ∧ c.toNat < 192)) : u8Step s c = .bad := by
  cases s with
  | start => exact absurd rfl hs
  | bad => rfl
  | _ =>
    simp only [u8Step]
    rw [if_neg]
    omega

/-- A text cut where no character is inside is a text. -/
theorem text_cut {s : Bytes} (h : Text s) (c : UInt8) (i : Nat) (hi : s[i]? = some c) (hc : ¬ (128 ≤ c.toNat ∧ c.toNat < 192)) : Text (s.take i) := by
  refine ⟨fun h0 => h.1 (List.mem_of_mem_take h0), ?_⟩
  have hu := h.2
  unfold utf8Valid at hu ⊢
  rw [beq_iff_eq] at hu ⊢
  obtain ⟨hlt, hget⟩ := List.getElem?_eq_some_iff.mp hi
  have hsplit : s = s.take i ++ c :: s.drop (i + 1) := by
    rw [← hget]; simp
  apply Classical.byContradiction
  intro hne
  rw [hsplit, List.foldl_append, List.foldl_cons, u8_continue _ c hne hc, u8_bad] at hu
  cases hu

/-- Quoting a name: its first hundred bytes. -/
theorem quoted_eq (name : Bytes) (h : Text name) (hp : ¬ PoisonName name) : quoted name = name.take 100 ∧ Text (name.take 100) := by
  have hnp : ensureSize name 100 ≠ .panic := fun he => hp ((c29_quote_panics_iff name).mp he)
  by_cases hl : name.length > 100
  · have hcut : Text (name.take 100) := by
      refine text_cut h name[100] 100 (List.getElem?_eq_getElem hl) fun hc => hp ⟨name[100], List.getElem?_eq_getElem hl, hc.1, hc.2⟩
    refine ⟨?_, hcut⟩
    unfold quoted ensureSize at *
    rw [if_pos hl] at hnp ⊢
    by_cases hb : charBoundary name 100 = true
    · rw [if_pos hb]
    · rw [if_neg hb] at hnp; exact absurd rfl hnp
  · rw [List.take_of_length_le (by omega)]
    refine ⟨?_, h⟩
    unfold quoted ensureSize
    rw [if_neg hl]

theorem request_text {S} {v : Srv S} {dg : Bytes} {write : Bool} {r : Request} (h : v.requestOf dg = some (write, r)) : Text r.fileName := by
  have key : ∀ b p, Packet.fromBytes b = .ok p → (p = .write r ∨ p = .read r) → Text r.fileName := by
    intro b p hp hor
    have hw := (c03_decode_iff_wire _ _).mp hp
    rcases hor with rfl | rfl
    · cases hw with
      | write hb => obtain ⟨_, hx, _⟩ := hb; exact hx
    · cases hw with
      | read hb => obtain ⟨_, hx, _⟩ := hb; exact hx
  unfold Srv.requestOf at h
  split at h
  · rename_i r' hp; simp only [Option.some.injEq, Prod.mk.injEq] at h; obtain ⟨-, rfl⟩ := h; exact key _ _ hp (.inl rfl)
  · rename_i r' hp; simp only [Option.some.injEq, Prod.mk.injEq] at h; obtain ⟨-, rfl⟩ := h; exact key _ _ hp (.inr rfl)
  · cases h

/-! ### One answer -/

theorem error_length (code : ErrorCode) (text : Bytes) : (Packet.error code text).toBytes.length = text.length + 5 := by
  simp [Packet.toBytes]; omega

/-- An answer of at most 140 bytes of text reaches the client with its text, whatever block size was agreed. -/
theorem replyText_brings {S} (v : Srv S) (hs : Option Aead) (o : Opts) (n : Nat) (code : ErrorCode) (text : Bytes)
    (ht : Text text) (hl : text.length ≤ 140) (ho : 512 ≤ o.blockSize) (he : v.cfg.errorToAuthorizedOnly = false) :
    ∃ b, v.replyText hs o n code text = [b] ∧ Brings hs b code text := by
  unfold Srv.replyText
  simp only [he, Bool.false_eq_true, ↓reduceIte]
  cases hs with
  | none => exact ⟨_, rfl, c01_round_trip (.error code text) ht⟩
  | some A =>
    have hpay := (payload_471 ho).1
    have hlen := error_length code text
    obtain ⟨_, ct, tag, h1, _, _, _, _, h2⟩ := c27_packet A (v.nonce n) (Packet.error code text).toBytes o.payload (v.nonce_length n)
      (by intro h0; rw [h0] at hlen; simp at hlen) (by omega)
    exact ⟨_, by simp only [h1], _, h2, c01_round_trip (.error code text) ht⟩

theorem replyText_silent {S} (v : Srv S) (hs : Option Aead) (o : Opts) (n : Nat) (code : ErrorCode) (text : Bytes)
    (he : v.cfg.errorToAuthorizedOnly = true) : v.replyText hs o n code text = [] := by
  unfold Srv.replyText; rw [if_pos he]

/-- The block size after parsing the options of a request. -/
theorem parsed_block {S} {cfg : SrvCfg S} (hb : 512 ≤ cfg.maxBlock) {session : Bytes} {ce : Exts} {lvl : Level} {u : Exts} {o : Opts}
    {k : Option SessionKeys} (h : srvParse cfg session ce { Opts.default with level := lvl } = .ok (u, o, k)) : 512 ≤ o.blockSize := by
  obtain ⟨u1, o1, cl, hN, _, _, hor⟩ := srvParse_ok h
  have h1 : 512 ≤ o1.blockSize := by
    rcases hN.block with ⟨_, h, _⟩ | ⟨n, _, h1, h2, _⟩ <;> omega
  rcases hor with ⟨_, _, _, rfl, _⟩ | ⟨_, _, _, _, _, _, _, _, _, _, rfl, _⟩ <;> exact h1

/-- The size after parsing the options of a request: the number asked for. -/
theorem parsed_size {S} {cfg : SrvCfg S} {session : Bytes} {ce : Exts} {lvl : Level} {u : Exts} {o : Opts}
    {k : Option SessionKeys} (h : srvParse cfg session ce { Opts.default with level := lvl } = .ok (u, o, k)) :
    o.fileSize = Spec.requested ce .transferSize (2 ^ 64 - 1) := by
  obtain ⟨u1, o1, cl, hN, _, _, hor⟩ := srvParse_ok h
  have h1 : o1.fileSize = Spec.requested ce .transferSize (2 ^ 64 - 1) := by
    rcases hN.size with ⟨_, h, h'⟩ | ⟨n, h1, h2, _⟩
    · rw [h, h']
    · rw [h1, h2]
  rcases hor with ⟨_, _, _, rfl, _⟩ | ⟨_, _, _, _, _, _, _, _, _, _, rfl, _⟩ <;> exact h1

/-! ### Reasons -/

/-- Specification: what a refusal because of the options may say, and when. `isSealed`: was the request sealed? -/
inductive Spec.Told {S : SigScheme} (cfg : SrvCfg S) (isSealed : Bool) (e : Exts) : Bytes → Prop
  | full : cfg.requireFull = true → isSealed = false → Told cfg isSealed e (ascii "Server requires full encryption")
  | data : cfg.authorized.isSome → (e .encryptionLevel = none ∨ e .encryptionLevel = some (ascii "none")) →
      Told cfg isSealed e (ascii "Server requires data encryption")
  | clear : e .encryptionLevel = some (ascii "full") → isSealed = false → Told cfg isSealed e (ascii "Invalid extension enclevel")
  | noSession : e .sessionPublicKey = none → Told cfg isSealed e (ascii "Invalid public key received")
  | noAuthorization : cfg.authorized.isSome → e .authPublicKey = none → Told cfg isSealed e (ascii "Invalid public key received")
  | stranger {ks t k} : cfg.authorized = some ks → e .authPublicKey = some t → decodeVerifyingKey S.point t = some k → k ∉ ks →
      Told cfg isSealed e (ascii "Not Authorized")
  | unsigned : (e .authPublicKey).isSome → e .signature = none → Told cfg isSealed e (ascii "Invalid signature received")
  | badSignature {t k s x p r} : e .authPublicKey = some t → decodeVerifyingKey S.point t = some k → e .signature = some s →
      decodeSignature s = some x → e .sessionPublicKey = some p → decodeKey 32 p = some r → S.verify k r x = false →
      Told cfg isSealed e (ascii "Invalid signature received")
  | level {t} : e .encryptionLevel = some t → Level.parse t = none → Told cfg isSealed e (ascii "Invalid extension parsing error Failed to encrypt")
  | session {t} : e .sessionPublicKey = some t → decodeKey 32 t = none →
      Told cfg isSealed e (ascii "Invalid extension parsing error Failed to decode public key")
  | noPoint {t b} : e .authPublicKey = some t → keyBuffer t = some b → S.point (b.take 32) = false →
      Told cfg isSealed e (ascii "Invalid extension parsing error Failed to decode public key")
  | authorization {t} : e .authPublicKey = some t → keyBuffer t = none →
      Told cfg isSealed e (ascii "Invalid extension parsing error Failed to decode signature")
  | signature {t} : e .signature = some t → decodeSignature t = none →
      Told cfg isSealed e (ascii "Invalid extension parsing error Failed to decode signature")

theorem optParse_error {α} {v : Option Bytes} {f : Bytes → Option α} {x : ExtErr} (h : optParse v f = .error x) :
    x = .encoding ∧ ∃ t, v = some t ∧ f t = none := by
  unfold optParse at h
  cases v with
  | none => cases h
  | some t =>
    simp only at h
    cases hf : f t with
    | none => rw [hf] at h; cases h; exact ⟨rfl, t, rfl, hf⟩
    | some a => rw [hf] at h; cases h

theorem optParse_none {α} {f : Bytes → Option α} {t : Bytes} (h : f t = none) : optParse (some t) f = .error .encoding := by
  simp [optParse, h]

theorem level_none {t : Bytes} (h : Level.parse t = some .none) : t = ascii "none" := by
  unfold Level.parse at h
  repeat' split at h
  all_goals first | assumption | cases h

theorem level_full {t : Bytes} (h : Level.parse t = some .full) : t = ascii "full" := by
  unfold Level.parse at h
  repeat' split at h
  all_goals first | assumption | cases h

/-- The part of the parsing behind the level. -/
theorem go_told {S} (cfg : SrvCfg S) (isSealed : Bool) (session : Bytes) (e : Exts) (u : Exts) (o : Opts) (cl : Option Level) (x : ExtErr)
    (hl : optParse (e .encryptionLevel) Level.parse = .ok cl) (h : srvParse.go cfg session e u o cl = .error x) :
    Told cfg isSealed e (x.text (encodingCause S e)) := by
  unfold srvParse.go at h
  simp only at h
  cases hk : optParse (e .sessionPublicKey) (decodeKey 32) with
  | error y =>
    rw [hk] at h; cases h
    obtain ⟨rfl, t, h1, h2⟩ := optParse_error hk
    have : encodingCause S e = ascii "Failed to decode public key" := by unfold encodingCause; rw [hl, hk]
    rw [this]; exact .session h1 h2
  | ok kk =>
    rw [hk] at h
    cases kk with
    | none => cases h; exact .noSession (optParse_ok_none hk)
    | some r =>
      simp only at h
      obtain ⟨p, hp1, hp2⟩ := optParse_ok_some hk
      cases hc : checkAuth S e r with
      | error y =>
        rw [hc] at h; cases h
        unfold checkAuth at hc
        cases ha : optParse (e .authPublicKey) (decodeVerifyingKey S.point) with
        | error z =>
          rw [ha] at hc; cases hc
          obtain ⟨rfl, t, h1, h2⟩ := optParse_error ha
          cases hb : keyBuffer t with
          | none =>
            have : encodingCause S e = ascii "Failed to decode signature" := by
              unfold encodingCause; rw [hl, hk, h1, optParse_none hb]
            rw [this]; exact .authorization h1 hb
          | some b =>
            have : encodingCause S e = ascii "Failed to decode public key" := by
              unfold encodingCause; rw [hl, hk, ha, h1]; simp [optParse, hb]
            rw [this]
            refine .noPoint h1 hb ?_
            simp only [decodeVerifyingKey, hb, Option.bind_eq_bind, Option.bind_some] at h2
            cases hq : S.point (b.take 32) with
            | false => rfl
            | true => rw [hq] at h2; cases h2
        | ok kk =>
          rw [ha] at hc
          cases kk with
          | none => cases hc
          | some k =>
            simp only at hc
            obtain ⟨t, ht1, ht2⟩ := optParse_ok_some ha
            cases hsg : optParse (e .signature) decodeSignature with
            | error z =>
              rw [hsg] at hc; cases hc
              obtain ⟨rfl, s, h1, h2⟩ := optParse_error hsg
              have hkb : ∃ b, keyBuffer t = some b := by
                unfold decodeVerifyingKey at ht2
                cases hb : keyBuffer t with
                | none => rw [hb] at ht2; cases ht2
                | some b => exact ⟨b, rfl⟩
              obtain ⟨b, hb⟩ := hkb
              have : encodingCause S e = ascii "Failed to decode signature" := by
                unfold encodingCause; rw [hl, hk, ha, ht1]; simp [optParse, hb]
              rw [this]; exact .signature h1 h2
            | ok ss =>
              rw [hsg] at hc
              cases ss with
              | none => cases hc; exact .unsigned (by rw [ht1]; rfl) (optParse_ok_none hsg)
              | some sig =>
                simp only at hc
                obtain ⟨s, hs1, hs2⟩ := optParse_ok_some hsg
                cases hv : S.verify k r sig with
                | true => rw [hv] at hc; cases hc
                | false => rw [hv] at hc; cases hc; exact .badSignature ht1 ht2 hs1 hs2 hp1 hp2 hv
      | ok auth =>
        rw [hc] at h
        simp only at h
        cases hau : cfg.authorized with
        | none => rw [hau] at h; cases h
        | some ks =>
          rw [hau] at h
          cases auth with
          | none =>
            cases h
            refine .noAuthorization (by rw [hau]; rfl) ?_
            unfold checkAuth at hc
            cases ha : optParse (e .authPublicKey) (decodeVerifyingKey S.point) with
            | error z => rw [ha] at hc; cases hc
            | ok kk =>
              rw [ha] at hc
              cases kk with
              | none => exact optParse_ok_none ha
              | some k =>
                simp only at hc
                split at hc
                · cases hc
                · cases hc
                · split at hc <;> cases hc
          | some k =>
            simp only at h
            by_cases hm : k ∈ ks
            · rw [if_pos hm] at h; cases h
            · rw [if_neg hm] at h; cases h
              have : ∃ t, e .authPublicKey = some t ∧ decodeVerifyingKey S.point t = some k := by
                unfold checkAuth at hc
                cases ha : optParse (e .authPublicKey) (decodeVerifyingKey S.point) with
                | error z => rw [ha] at hc; cases hc
                | ok kk =>
                  rw [ha] at hc
                  cases kk with
                  | none => cases hc
                  | some k' =>
                    simp only at hc
                    split at hc
                    · cases hc
                    · cases hc
                    · split at hc
                      · cases hc; exact optParse_ok_some ha
                      · cases hc
              obtain ⟨t, h1, h2⟩ := this
              exact .stranger hau h1 h2 hm

/-- Every refusal because of the options says one of these sentences, and the sentence is true. -/
theorem parse_told {S} (cfg : SrvCfg S) (session : Bytes) (e : Exts) (isSealed : Bool) (x : ExtErr)
    (h : srvParse cfg session e { Opts.default with level := if isSealed then .full else .none } = .error x) :
    Told cfg isSealed e (x.text (encodingCause S e)) := by
  generalize hlvl : (if isSealed then Level.full else Level.none) = lvl at h
  have hN := srvNumbers_spec cfg e lvl
  unfold srvParse at h
  change (match optParse (e .encryptionLevel) Level.parse with
      | .error x => Except.error x
      | .ok clientLevel =>
        if cfg.requireFull = true ∧ (srvNumbers cfg e { Opts.default with level := lvl }).2.level ≠ Level.full then
          .error (.serverRequired .full)
        else
          match clientLevel.getD .none with
          | .none => match cfg.authorized with
            | none => .ok ((srvNumbers cfg e { Opts.default with level := lvl }).1,
                (srvNumbers cfg e { Opts.default with level := lvl }).2, none)
            | some _ => .error (.serverRequired .data)
          | .full =>
            if (srvNumbers cfg e { Opts.default with level := lvl }).2.level ≠ Level.full then
              .error (.invalidExtension .encryptionLevel)
            else srvParse.go cfg session e (srvNumbers cfg e { Opts.default with level := lvl }).1
              { (srvNumbers cfg e { Opts.default with level := lvl }).2 with level := .full } clientLevel
          | .data | .optionalData => srvParse.go cfg session e (srvNumbers cfg e { Opts.default with level := lvl }).1
              { (srvNumbers cfg e { Opts.default with level := lvl }).2 with level := .data } clientLevel
          | .protocol | .optionalProtocol =>
            srvParse.go cfg session e (srvNumbers cfg e { Opts.default with level := lvl }).1
              { (srvNumbers cfg e { Opts.default with level := lvl }).2 with level := .protocol } clientLevel) = .error x at h
  generalize srvNumbers cfg e { Opts.default with level := lvl } = p at *
  obtain ⟨u1, o1⟩ := p
  simp only at hN h
  have hl := hN.level
  have hsealed : o1.level ≠ .full → isSealed = false := by
    intro hne
    cases isSealed with
    | false => rfl
    | true => rw [hl, ← hlvl] at hne; exact absurd rfl hne
  cases hcl : optParse (e .encryptionLevel) Level.parse with
  | error y =>
    rw [hcl] at h; cases h
    obtain ⟨rfl, t, h1, h2⟩ := optParse_error hcl
    have : encodingCause S e = ascii "Failed to encrypt" := by unfold encodingCause; rw [hcl]
    rw [this]; exact .level h1 h2
  | ok cl =>
    rw [hcl] at h
    simp only at h
    by_cases hreq : cfg.requireFull = true ∧ o1.level ≠ .full
    · rw [if_pos hreq] at h; cases h; exact .full hreq.1 (hsealed hreq.2)
    · rw [if_neg hreq] at h
      cases hgd : cl.getD .none with
      | none =>
        rw [hgd] at h
        simp only at h
        cases hau : cfg.authorized with
        | none => rw [hau] at h; cases h
        | some ks =>
          rw [hau] at h; cases h
          refine .data (by rw [hau]; rfl) ?_
          cases cl with
          | none => exact .inl (optParse_ok_none hcl)
          | some l =>
            obtain ⟨t, h1, h2⟩ := optParse_ok_some hcl
            simp only [Option.getD_some] at hgd
            subst hgd
            exact .inr (by rw [h1, level_none h2])
      | full =>
        rw [hgd] at h
        simp only at h
        by_cases hf : o1.level ≠ .full
        · rw [if_pos hf] at h; cases h
          cases cl with
          | none => cases hgd
          | some l =>
            obtain ⟨t, h1, h2⟩ := optParse_ok_some hcl
            simp only [Option.getD_some] at hgd
            subst hgd
            exact .clear (by rw [h1, level_full h2]) (hsealed hf)
        · rw [if_neg hf] at h; exact go_told cfg isSealed session e _ _ _ x hcl h
      | data => rw [hgd] at h; exact go_told cfg isSealed session e _ _ _ x hcl h
      | optionalData => rw [hgd] at h; exact go_told cfg isSealed session e _ _ _ x hcl h
      | protocol => rw [hgd] at h; exact go_told cfg isSealed session e _ _ _ x hcl h
      | optionalProtocol => rw [hgd] at h; exact go_told cfg isSealed session e _ _ _ x hcl h

theorem told_text {S} {cfg : SrvCfg S} {isSealed : Bool} {e : Exts} {text : Bytes} (h : Told cfg isSealed e text) :
    Text text ∧ text.length ≤ 140 := by
  cases h <;> exact ⟨⟨by decide +kernel, by decide +kernel⟩, by decide +kernel⟩

/-! ### From the reason to the answer -/

theorem answers_silent {S} (v : Srv S) (hs : Option Aead) (o : Opts) (n : Nat) (code : ErrorCode) (text : Bytes)
    (ht : Text text) (hl : text.length ≤ 140) (ho : 512 ≤ o.blockSize) :
    if v.cfg.errorToAuthorizedOnly then v.replyText hs o n code text = [] else ∃ b, v.replyText hs o n code text = [b] ∧ Brings hs b code text := by
  cases he : v.cfg.errorToAuthorizedOnly with
  | true => simp only [↓reduceIte]; exact replyText_silent v hs o n code text he
  | false => simp only [Bool.false_eq_true, ↓reduceIte]; exact replyText_brings v hs o n code text ht hl ho he

/-- **C78**, refused options: unless errors are for authorized clients only, exactly one answer, sealed like the request, with code 4
and one sentence, which is true of the request and the configuration. -/
theorem c78_options {S} (v : Srv S) (t : Nat) (dg : Bytes) (io : NewIo) (h : (v.newConn t dg io).result = .error .options) :
    ∃ write r text, v.requestOf dg = some (write, r) ∧ Told v.cfg (v.openRequest dg).1.isSome r.exts text ∧ text.length ≤ 140 ∧
      (if v.cfg.errorToAuthorizedOnly then v.answers dg io = []
       else ∃ b, v.answers dg io = [b] ∧ Brings (v.openRequest dg).1 b .illegalOperation text) := by
  have hst := newConn_steps v t dg io
  unfold Srv.answers
  cases hr : v.requestOf dg with
  | none => rw [hr] at hst; rw [h] at hst; simp at hst
  | some wr =>
    obtain ⟨write, r⟩ := wr
    rw [hr] at hst
    simp only at hst ⊢
    cases hs : srvParse v.cfg io.sessionPub r.exts { Opts.default with level := v.arrived dg } with
    | error x =>
      have ht := parse_told v.cfg io.sessionPub r.exts (v.openRequest dg).1.isSome x hs
      refine ⟨write, r, _, rfl, ht, (told_text ht).2, ?_⟩
      exact answers_silent v _ _ _ _ _ (told_text ht).1 (told_text ht).2 (by simp [Opts.default])
    | ok q =>
      rw [hs] at hst
      simp only at hst
      rw [h] at hst
      repeat' split at hst
      all_goals simp at hst

/-- **C78**, too large: the answer names the size asked for. It goes out in the clear, whatever the request was, and also if errors
are for authorized clients only. -/
theorem c78_size_partial {S} (v : Srv S) (t : Nat) (dg : Bytes) (io : NewIo) (h : (v.newConn t dg io).result = .error .size) :
    ∃ write r n b, v.requestOf dg = some (write, r) ∧ requested r.exts .transferSize (2 ^ 64 - 1) = some n ∧ v.cfg.maxFileSize < n ∧
      v.answers dg io = [b] ∧ Brings none b .diskFull (ascii "Invalid file size received " ++ decimal n) := by
  have hst := newConn_steps v t dg io
  unfold Srv.answers
  cases hr : v.requestOf dg with
  | none => rw [hr] at hst; rw [h] at hst; simp at hst
  | some wr =>
    obtain ⟨write, r⟩ := wr
    rw [hr] at hst
    simp only at hst ⊢
    cases hs : srvParse v.cfg io.sessionPub r.exts { Opts.default with level := v.arrived dg } with
    | error x => rw [hs] at hst; rw [h] at hst; simp at hst
    | ok q =>
      rw [hs] at hst
      simp only at hst ⊢
      by_cases hz : sizeAllowed v.cfg q.2.1 = true
      · simp only [hz, not_true_eq_false, ↓reduceIte] at hst
        rw [h] at hst
        repeat' split at hst
        all_goals simp at hst
      · simp only [hz, not_false_eq_true, ↓reduceIte, Bool.false_eq_true]
        have hsz := parsed_size (u := q.1) (o := q.2.1) (k := q.2.2) hs
        unfold sizeAllowed at hz
        simp only [decide_eq_true_eq] at hz
        cases hf : q.2.1.fileSize with
        | none => rw [hf] at hz; simp at hz
        | some n =>
          rw [hf] at hz
          simp only [Option.getD_some] at hz ⊢
          refine ⟨write, r, n, _, rfl, by rw [← hsz, hf], by omega, rfl, ?_⟩
          refine c01_round_trip (.error _ _) (text_append ⟨by decide +kernel, by decide +kernel⟩ (text_decimal n))

/-- **C78**, unusable name: the answer names (the first hundred bytes of) it. It goes out in the clear, whatever the request was, and
also if errors are for authorized clients only. -/
theorem c78_name_partial {S} (v : Srv S) (t : Nat) (dg : Bytes) (io : NewIo) (h : (v.newConn t dg io).result = .error .name) :
    ∃ write r, v.requestOf dg = some (write, r) ∧ normalizeName r.fileName = none ∧ (¬ PoisonName r.fileName →
      ∃ b, v.answers dg io = [b] ∧ Brings none b .accessViolation (ascii "Invalid file name received " ++ r.fileName.take 100)) := by
  have hst := newConn_steps v t dg io
  unfold Srv.answers
  cases hr : v.requestOf dg with
  | none => rw [hr] at hst; rw [h] at hst; simp at hst
  | some wr =>
    obtain ⟨write, r⟩ := wr
    have htx := request_text hr
    rw [hr] at hst
    simp only at hst ⊢
    cases hs : srvParse v.cfg io.sessionPub r.exts { Opts.default with level := v.arrived dg } with
    | error x => rw [hs] at hst; rw [h] at hst; simp at hst
    | ok q =>
      rw [hs] at hst
      simp only at hst ⊢
      by_cases hz : sizeAllowed v.cfg q.2.1 = true
      · simp only [hz, not_true_eq_false, ↓reduceIte] at hst ⊢
        cases hm : normalizeName r.fileName with
        | none =>
          refine ⟨write, r, rfl, hm, fun hp => ?_⟩
          obtain ⟨hq, hqt⟩ := quoted_eq r.fileName htx hp
          simp only [hq]
          refine ⟨_, rfl, c01_round_trip (.error _ _) (text_append ⟨by decide +kernel, by decide +kernel⟩ hqt)⟩
        | some name =>
          rw [hm] at hst
          simp only at hst
          rw [h] at hst
          split at hst <;> simp at hst
      · simp only [hz, not_false_eq_true, ↓reduceIte, Bool.false_eq_true] at hst
        rw [h] at hst; simp at hst

/-- **C78**, a file which cannot be opened, for whatever reason: unless errors are for authorized clients only, exactly one answer,
sealed like the request, with code 3 (disk full, also for a download of a missing file) and (the first hundred bytes of) the name. -/
theorem c78_file {S} (v : Srv S) (hb : 512 ≤ v.cfg.maxBlock) (t : Nat) (dg : Bytes) (io : NewIo) (h : (v.newConn t dg io).result = .error .file) :
    ∃ write r, v.requestOf dg = some (write, r) ∧ (¬ PoisonName r.fileName →
      if v.cfg.errorToAuthorizedOnly then v.answers dg io = []
      else ∃ b, v.answers dg io = [b] ∧ Brings (v.openRequest dg).1 b .diskFull
        (ascii (if write then "Unable to write file " else "Unable to read file ") ++ r.fileName.take 100)) := by
  have hst := newConn_steps v t dg io
  unfold Srv.answers
  cases hr : v.requestOf dg with
  | none => rw [hr] at hst; rw [h] at hst; simp at hst
  | some wr =>
    obtain ⟨write, r⟩ := wr
    have htx := request_text hr
    rw [hr] at hst
    simp only at hst ⊢
    cases hs : srvParse v.cfg io.sessionPub r.exts { Opts.default with level := v.arrived dg } with
    | error x => rw [hs] at hst; rw [h] at hst; simp at hst
    | ok q =>
      rw [hs] at hst
      simp only at hst ⊢
      have hblk := parsed_block hb (u := q.1) (o := q.2.1) (k := q.2.2) hs
      by_cases hz : sizeAllowed v.cfg q.2.1 = true
      · simp only [hz, not_true_eq_false, ↓reduceIte] at hst ⊢
        cases hm : normalizeName r.fileName with
        | none => rw [hm] at hst; rw [h] at hst; simp at hst
        | some name =>
          rw [hm] at hst
          simp only at hst
          refine ⟨write, r, rfl, fun hp => ?_⟩
          obtain ⟨hq, hqt⟩ := quoted_eq r.fileName htx hp
          have hlen : (r.fileName.take 100).length ≤ 100 := by simp; omega
          simp only [hq]
          cases write with
          | true =>
            simp only [↓reduceIte] at hst ⊢
            cases hw : io.openWrite name with
            | true => simp only [hw, ↓reduceIte] at hst; rw [h] at hst; simp at hst
            | false =>
              simp only [Bool.false_eq_true, ↓reduceIte]
              refine answers_silent v _ _ _ _ _ (text_append ⟨by decide +kernel, by decide +kernel⟩ hqt) ?_ hblk
              rw [List.length_append]; have : (ascii "Unable to write file ").length = 21 := by decide +kernel
              omega
          | false =>
            simp only [Bool.false_eq_true, ↓reduceIte] at hst ⊢
            cases hw : io.openRead name with
            | some sf => simp only [hw, Option.isSome_some, ↓reduceIte] at hst; rw [h] at hst; simp at hst
            | none =>
              simp only
              refine answers_silent v _ _ _ _ _ (text_append ⟨by decide +kernel, by decide +kernel⟩ hqt) ?_ hblk
              rw [List.length_append]; have : (ascii "Unable to read file ").length = 20 := by decide +kernel
              omega
      · simp only [hz, not_false_eq_true, ↓reduceIte, Bool.false_eq_true] at hst
        rw [h] at hst; simp at hst

/-- **C78**: nothing else is answered with an error. -/
theorem c78_otherwise {S} (v : Srv S) (t : Nat) (dg : Bytes) (io : NewIo) (h1 : (v.newConn t dg io).result ≠ .error .options)
    (h2 : (v.newConn t dg io).result ≠ .error .size) (h3 : (v.newConn t dg io).result ≠ .error .name)
    (h4 : (v.newConn t dg io).result ≠ .error .file) : v.answers dg io = [] := by
  have hst := newConn_steps v t dg io
  unfold Srv.answers
  cases hr : v.requestOf dg with
  | none => rfl
  | some wr =>
    obtain ⟨write, r⟩ := wr
    rw [hr] at hst
    simp only at hst ⊢
    cases hs : srvParse v.cfg io.sessionPub r.exts { Opts.default with level := v.arrived dg } with
    | error x => rw [hs] at hst; exact absurd hst.1 h1
    | ok q =>
      rw [hs] at hst
      simp only at hst ⊢
      by_cases hz : sizeAllowed v.cfg q.2.1 = true
      · simp only [hz, not_true_eq_false, ↓reduceIte] at hst ⊢
        cases hm : normalizeName r.fileName with
        | none => rw [hm] at hst; exact absurd hst.1 h3
        | some name =>
          rw [hm] at hst
          simp only at hst ⊢
          cases write with
          | true =>
            simp only [↓reduceIte] at hst ⊢
            cases hw : io.openWrite name with
            | true => simp
            | false => simp only [hw, Bool.false_eq_true, ↓reduceIte] at hst; exact absurd hst.1 h4
          | false =>
            simp only [Bool.false_eq_true, ↓reduceIte] at hst ⊢
            cases hw : io.openRead name with
            | some sf => rfl
            | none => simp only [hw, Option.isSome_none, Bool.false_eq_true, ↓reduceIte] at hst; exact absurd hst.1 h4
      · simp only [hz, not_false_eq_true, ↓reduceIte, Bool.false_eq_true] at hst
        exact absurd hst.1 h2

theorem replyError_length {S} (v : Srv S) (hs : Option Aead) (o : Opts) (n : Nat) (code code' : ErrorCode) (text : Bytes)
    (ht : Text text) (hl : text.length ≤ 140) (ho : 512 ≤ o.blockSize) :
    (v.replyError hs o n code).length = (v.replyText hs o n code' text).length := by
  have h0 : v.replyError hs o n code = v.replyText hs o n code [] := rfl
  rw [h0]
  cases he : v.cfg.errorToAuthorizedOnly with
  | true => rw [replyText_silent _ _ _ _ _ _ he, replyText_silent _ _ _ _ _ _ he]
  | false =>
    obtain ⟨b, hb, _⟩ := replyText_brings v hs o n code [] ⟨by simp, by decide⟩ (by simp) ho he
    obtain ⟨b', hb', _⟩ := replyText_brings v hs o n code' text ht hl ho he
    rw [hb, hb']; rfl

/-- The model of the server (`Srv.newConn`), which leaves the texts empty, answers exactly the datagrams the server with texts answers.
(If quoting the name panics, there is no server any more: C29.) -/
theorem c78_same_answers {S} (v : Srv S) (hb : 512 ≤ v.cfg.maxBlock) (t : Nat) (dg : Bytes) (io : NewIo)
    (hp : ∀ write r, v.requestOf dg = some (write, r) → ¬ PoisonName r.fileName) :
    (v.newConn t dg io).replies.length = (v.answers dg io).length := by
  have hst := newConn_steps v t dg io
  cases hr : v.requestOf dg with
  | none => rw [hr] at hst; rw [hst.2]; unfold Srv.answers; rw [hr]
  | some wr =>
    obtain ⟨write, r⟩ := wr
    have htx := request_text hr
    obtain ⟨hq, hqt⟩ := quoted_eq r.fileName htx (hp write r hr)
    have hlen : (r.fileName.take 100).length ≤ 100 := by simp; omega
    unfold Srv.answers
    rw [hr] at hst ⊢
    simp only at hst ⊢
    cases hs : srvParse v.cfg io.sessionPub r.exts { Opts.default with level := v.arrived dg } with
    | error x =>
      rw [hs] at hst
      have ht := parse_told v.cfg io.sessionPub r.exts (v.openRequest dg).1.isSome x hs
      rw [hst.2]
      exact replyError_length v _ _ _ _ _ _ (told_text ht).1 (told_text ht).2 (by simp [Opts.default])
    | ok q =>
      rw [hs] at hst
      simp only at hst ⊢
      have hblk := parsed_block hb (u := q.1) (o := q.2.1) (k := q.2.2) hs
      by_cases hz : sizeAllowed v.cfg q.2.1 = true
      · simp only [hz, not_true_eq_false, ↓reduceIte] at hst ⊢
        cases hm : normalizeName r.fileName with
        | none => rw [hm] at hst; rw [hst.2]; rfl
        | some name =>
          rw [hm] at hst
          simp only [hq] at hst ⊢
          cases write with
          | true =>
            simp only [↓reduceIte] at hst ⊢
            cases hw : io.openWrite name with
            | true => simp only [hw, ↓reduceIte] at hst ⊢; rw [hst.1]
            | false =>
              simp only [hw, Bool.false_eq_true, ↓reduceIte] at hst ⊢
              rw [hst.2]
              refine replyError_length v _ _ _ _ _ _ (text_append ⟨by decide +kernel, by decide +kernel⟩ hqt) ?_ hblk
              rw [List.length_append]; have : (ascii "Unable to write file ").length = 21 := by decide +kernel
              omega
          | false =>
            simp only [Bool.false_eq_true, ↓reduceIte] at hst ⊢
            cases hw : io.openRead name with
            | some sf => simp only [hw, Option.isSome_some, ↓reduceIte] at hst ⊢; rw [hst.1]
            | none =>
              simp only [hw, Option.isSome_none, Bool.false_eq_true, ↓reduceIte] at hst ⊢
              rw [hst.2]
              refine replyError_length v _ _ _ _ _ _ (text_append ⟨by decide +kernel, by decide +kernel⟩ hqt) ?_ hblk
              rw [List.length_append]; have : (ascii "Unable to read file ").length = 20 := by decide +kernel
              omega
      · simp only [hz, not_false_eq_true, ↓reduceIte, Bool.false_eq_true] at hst ⊢
        rw [hst.2]; rfl

/-! ### At the client -/

/-- **C78**, at the client: a sealed answer from the server ends the call with the error of the server (the text is only logged). -/
theorem c78_client {S} (v : Cli S) (j : Job) (q : Query) (i : CliIn) (k : Bytes) (hl : j.opts.level = .full ∨ j.opts.level = .protocol)
    (hk : v.cfg.remoteKey = some k) (req : Bytes) (hreq : v.put (v.initialSock j.opts).1 i.nonce i.sendOk (j.request q.exts) = some req)
    (d : Bytes) (hd : i.recv = .dgram v.cfg.endpoint d) (hroom : d.length ≤ q.room) (code : ErrorCode) (text : Bytes)
    (hb : Brings (some (v.handshake k)) d code text) :
    v.queryStep j q i = (.done (.error .remoteError) [], [(v.cfg.endpoint, req)]) := by
  obtain ⟨b, hop, hfb⟩ := hb
  have hne : j.opts.level ≠ .none := by rcases hl with h | h <;> rw [h] <;> decide
  have hsock : (v.initialSock j.opts).1.recv d = some b ∧ (v.initialSock j.opts).2.level ≠ .none := by
    unfold Cli.initialSock
    rw [if_neg hne, hk]
    rcases hl with h | h <;> simp only [h, ↓reduceIte, reduceCtorEq, Sock.recv, unprotect, hop] <;> exact ⟨trivial, by decide⟩
  have hlv : (v.requestOpts j).level ≠ .none := by
    unfold Cli.requestOpts
    repeat' split
    all_goals exact hsock.2
  unfold Cli.queryStep
  simp only [hreq, hd, List.take_of_length_le hroom, hsock.1]
  simp [Cli.reply, hfb, hlv]

/-- No datagram of less than 40 bytes is taken for a sealed one: the call ends with an i/o error. -/
theorem c78_client_short {S} (v : Cli S) (j : Job) (q : Query) (i : CliIn) (k : Bytes) (hl : j.opts.level = .full ∨ j.opts.level = .protocol)
    (hk : v.cfg.remoteKey = some k) (src : Ep) (d : Bytes) (hd : i.recv = .dgram src d) (hshort : d.length < 40) :
    (v.queryStep j q i).1 = .done (.error .io) [] := by
  have hne : j.opts.level ≠ .none := by rcases hl with h | h <;> rw [h] <;> decide
  have hop : openPacket (v.handshake k) (d.take q.room) = .err := by
    have hlen : (d.take q.room).length < 40 := by simp; omega
    unfold openPacket decrypt
    have : rsliceToArray 16 (d.take q.room) 24 = none := by unfold rsliceToArray; rw [if_neg (by omega)]
    rw [this]
    cases rsliceToArray 24 (d.take q.room) 0 <;> rfl
  have hsock : (v.initialSock j.opts).1.recv (d.take q.room) = none := by
    unfold Cli.initialSock
    rw [if_neg hne, hk]
    rcases hl with h | h <;> simp only [h, ↓reduceIte, reduceCtorEq, Sock.recv, unprotect, hop]
  unfold Cli.queryStep
  cases hput : v.put (v.initialSock j.opts).1 i.nonce i.sendOk (j.request q.exts) with
  | none => simp only [hput]
  | some req => simp only [hput, hd, hsock]

/-- **C78**, a witness against "the client learns the reason": a sealed request with an unusable name of at most seven bytes is answered
in the clear, and the client which sent it sealed ends with an i/o error when it gets the answer. -/
theorem c78_name_lost {S} (v : Srv S) (t : Nat) (dg : Bytes) (io : NewIo) (h : (v.newConn t dg io).result = .error .name)
    (hlen : ∀ write r, v.requestOf dg = some (write, r) → r.fileName.length ≤ 7)
    (c : Cli S) (j : Job) (q : Query) (i : CliIn) (k : Bytes) (hl : j.opts.level = .full ∨ j.opts.level = .protocol)
    (hk : c.cfg.remoteKey = some k) (src : Ep) :
    ∃ b, v.answers dg io = [b] ∧ (i.recv = .dgram src b → (c.queryStep j q i).1 = .done (.error .io) []) := by
  obtain ⟨write, r, hr, hm, hans⟩ := c78_name_partial v t dg io h
  have hl7 := hlen write r hr
  have hnp : ¬ PoisonName r.fileName := by
    rintro ⟨x, hx, _⟩
    rw [List.getElem?_eq_none (by omega)] at hx; cases hx
  have htx := request_text hr
  obtain ⟨hq, _⟩ := quoted_eq r.fileName htx hnp
  obtain ⟨b, hb, _⟩ := hans hnp
  refine ⟨b, hb, fun hrv => c78_client_short c j q i k hl hk src b hrv ?_⟩
  have hst := newConn_steps v t dg io
  unfold Srv.answers at hb
  rw [hr] at hb hst
  simp only at hb hst
  cases hs : srvParse v.cfg io.sessionPub r.exts { Opts.default with level := v.arrived dg } with
  | error x => rw [hs] at hst; rw [h] at hst; simp at hst
  | ok p =>
    rw [hs] at hb hst
    simp only at hb hst
    by_cases hz : sizeAllowed v.cfg p.2.1 = true
    · simp only [hz, not_true_eq_false, ↓reduceIte] at hb
      rw [hm] at hb
      simp only [hq, List.cons.injEq, and_true] at hb
      rw [← hb, error_length, List.length_append]
      have h1 : (ascii "Invalid file name received ").length = 27 := by decide +kernel
      have h2 : (r.fileName.take 100).length ≤ 7 := by simp; omega
      omega
    · simp only [hz, not_false_eq_true, ↓reduceIte, Bool.false_eq_true] at hst
      rw [h] at hst; simp at hst

end Tftp

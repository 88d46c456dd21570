import Verif.CryptoProps
import Verif.NegotiateAgree
/-
C28: datagram sizes; options on the wire (C18).
-/
namespace Tftp

/-! ### Option values -/

theorem decimal_length_le (n d : Nat) (h : n < 10 ^ d) (hd : 1 ≤ d) : (decimal n).length ≤ d := by
  induction d generalizing n with
  | zero => omega
  | succ d ih =>
    unfold decimal
    split
    · simp
    · rename_i hn
      have : d ≠ 0 := by rintro rfl; simp at h; omega
      have := ih (n / 10) (by rw [Nat.pow_succ] at h; omega) (by omega)
      simp
      omega

/-- How long the value of an option sent by this program can be. -/
def Spec.valueCap : Extension → Nat
  | .blockSize => 5 | .timeout => 20 | .transferSize => 20 | .encryptionLevel => 17 | .windowSize => 5
  | .sessionPublicKey => 44 | .authPublicKey => 44 | .signature => 88

/-- All values are short strings without NUL. -/
def Spec.ShortValues (e : Exts) : Prop := ∀ k v, e k = some v → v.length ≤ Spec.valueCap k ∧ Spec.Text v

theorem text_of_ascii {v : Bytes} (h : ∀ c ∈ v, 0 < c.toNat ∧ c.toNat < 128) : Spec.Text v := by
  refine ⟨fun h0 => ?_, utf8Valid_ascii fun x hx => (h x hx).2⟩
  have := (h 0 h0).1
  simp at this

theorem text_decimal (n : Nat) : Spec.Text (decimal n) :=
  text_of_ascii fun c hc => by have := decimal_digits n c hc; omega

theorem text_level (l : Level) : l.text.length ≤ 17 ∧ Spec.Text l.text := by
  cases l <;> exact ⟨by decide, by decide, by decide⟩

theorem text_key (k : Bytes) : Spec.Text (encodeKey k) :=
  text_of_ascii fun c hc => by have := (encodeKey_printable k c hc).1; unfold Spec.printable at this; omega

theorem key_length (k : Bytes) (h : k.length = 32) : (encodeKey k).length ≤ 44 := by
  unfold encodeKey; rw [b64encode_length, h]; decide
theorem sig_length (k : Bytes) (h : k.length = 64) : (encodeKey k).length ≤ 88 := by
  unfold encodeKey; rw [b64encode_length, h]; decide

theorem createExtensions_short {S : SigScheme} (co : Opts) (keys : InitialKeys S) (hkey : keys.sessionPub.length = 32)
    (hco : co.blockSize ≤ 65535 ∧ co.window ≤ 65535 ∧ ∀ s, co.fileSize = some s → s < 2 ^ 64) (hr : co.retry < 2 ^ 64) :
    Spec.ShortValues (createExtensions co keys) := by
  intro k v h
  rw [createExtensions_eq] at h
  cases k <;> simp only [Spec.request, Spec.valueCap] at h ⊢
  · split at h
    · cases h
    · cases h; exact ⟨decimal_length_le _ _ (by omega) (by omega), text_decimal _⟩
  · split at h
    · cases h
    · cases h; exact ⟨decimal_length_le _ _ (by omega) (by omega), text_decimal _⟩
  · cases hf : co.fileSize with
    | none => rw [hf] at h; cases h
    | some s =>
      have := hco.2.2 s hf
      rw [hf] at h; cases h; exact ⟨decimal_length_le _ _ (by omega) (by omega), text_decimal _⟩
  · split at h
    · cases h
    · cases h; exact text_level _
  · split at h
    · cases h
    · cases h; exact ⟨decimal_length_le _ _ (by omega) (by omega), text_decimal _⟩
  · split at h
    · cases h
    · cases h; exact ⟨key_length _ hkey, text_key _⟩
  · split at h
    · cases h
    · cases ha : keys.auth with
      | none => rw [ha] at h; cases h
      | some a => rw [ha] at h; cases h; exact ⟨key_length _ a.pub_length, text_key _⟩
  · split at h
    · cases h
    · cases ha : keys.auth with
      | none => rw [ha] at h; cases h
      | some a => rw [ha] at h; cases h; exact ⟨sig_length _ (a.sign_length _), text_key _⟩

theorem insert_short {u : Exts} {k : Extension} {v : Bytes} (hu : Spec.ShortValues u)
    (hv : v.length ≤ Spec.valueCap k ∧ Spec.Text v) : Spec.ShortValues (u.insert k v) := by
  intro k' v' h
  unfold Exts.insert at h
  split at h
  · cases h; subst_vars; exact hv
  · exact hu k' v' h

theorem srvNegotiate_short {S : SigScheme} (cfg : SrvCfg S) (hb : cfg.maxBlock ≤ 65535) (hw : cfg.maxWindow ≤ 65535)
    (session : Bytes) (hses : session.length = 32) (handshake : Level) (ce : Exts) (kind : ReqKind)
    (hkind : ∀ s, kind = .read (some s) → s < 2 ^ 64) (u : Exts) (o : Opts) (k : Option SessionKeys)
    (h : srvNegotiate cfg session handshake ce kind = .ok (u, o, k)) : Spec.ShortValues u := by
  obtain ⟨u0, o0, hp, -, hk⟩ := srvNegotiate_ok h
  obtain ⟨u1, o1, cl, hN, -, -, hcase⟩ := srvParse_ok hp
  have h1 : Spec.ShortValues u1 := by
    intro k v h
    cases k with
    | blockSize =>
      rcases hN.block with ⟨B, -⟩ | ⟨n, -, -, -, B⟩
      · rw [B] at h; cases h
      · rw [B] at h; cases h
        exact ⟨decimal_length_le _ 5 (by omega) (by omega), text_decimal _⟩
    | windowSize =>
      rcases hN.window with ⟨B, -⟩ | ⟨n, -, -, -, B⟩
      · rw [B] at h; cases h
      · rw [B] at h; cases h
        exact ⟨decimal_length_le _ 5 (by omega) (by omega), text_decimal _⟩
    | timeout =>
      rcases hN.timeout with ⟨B, -⟩ | ⟨n, hn, -, -, -, B⟩
      · rw [B] at h; cases h
      · rw [B] at h; cases h
        obtain ⟨t, -, ht⟩ := Option.bind_eq_some_iff.mp hn
        have := parseUInt_le _ _ _ ht
        exact ⟨decimal_length_le _ 20 (by omega) (by omega), text_decimal _⟩
    | transferSize =>
      rcases hN.size with ⟨B, -⟩ | ⟨n, hn, -, B⟩
      · rw [B] at h; cases h
      · rw [B] at h; cases h
        obtain ⟨t, -, ht⟩ := Option.bind_eq_some_iff.mp hn
        have := parseUInt_le _ _ _ ht
        exact ⟨decimal_length_le _ 20 (by omega) (by omega), text_decimal _⟩
    | encryptionLevel => rw [hN.rest.1] at h; cases h
    | sessionPublicKey => rw [hN.rest.2.1] at h; cases h
    | authPublicKey => rw [hN.rest.2.2.1] at h; cases h
    | signature => rw [hN.rest.2.2.2] at h; cases h
  have h0 : Spec.ShortValues u0 := by
    rcases hcase with ⟨-, -, rfl, -, -⟩ | ⟨l, remote, auth, -, -, -, -, -, -, rfl, -, -⟩
    · exact h1
    · have h2 := insert_short (k := .sessionPublicKey)
        (insert_short (k := .encryptionLevel) h1 (text_level (srvLevel l))) ⟨key_length _ hses, text_key _⟩
      unfold srvKeys
      cases hpk : cfg.privateKey with
      | none => exact h2
      | some a =>
        cases auth with
        | none => exact h2
        | some x =>
          exact insert_short (insert_short h2 ⟨key_length _ a.pub_length, text_key _⟩)
            ⟨sig_length _ (a.sign_length _), text_key _⟩
  rcases hk with ⟨-, rfl, -⟩ | ⟨a, hr, rfl, -⟩
  · exact h0
  · unfold srvReadSize
    cases a with
    | none =>
      cases u0 .transferSize with
      | none => exact h0
      | some v =>
        intro k v h
        simp only [Exts.remove] at h
        split at h
        · cases h
        · exact h0 k v h
    | some s =>
      cases u0 .transferSize with
      | none => exact h0
      | some v =>
        simp only
        split
        · have := hkind s hr
          exact insert_short h0 ⟨decimal_length_le _ 20 (by omega) (by omega), text_decimal _⟩
        · exact h0

/-! ### Sizes of plaintext packets -/

theorem foldl_append_length {α} (f : α → Bytes) (l : List α) (init : Bytes) :
    (l.foldl (fun v x => v ++ f x) init).length = init.length + (l.map fun x => (f x).length).sum := by
  induction l generalizing init with
  | nil => simp
  | cons a l ih => simp only [List.foldl_cons, ih, List.length_append, List.map_cons, List.sum_cons]; omega

theorem exts_toBytes_le (e : Exts) (h : Spec.ShortValues e) : e.toBytes.length ≤ 309 := by
  unfold Exts.toBytes
  rw [foldl_append_length (fun kv : Extension × Bytes => kv.1.name ++ [0] ++ kv.2 ++ [0])]
  have key : ∀ l : List Extension,
      ((l.filterMap fun k => (e k).map fun v => (k, v)).map fun x => (x.1.name ++ [0] ++ x.2 ++ [0]).length).sum ≤
        (l.map fun k => k.name.length + Spec.valueCap k + 2).sum := by
    intro l
    induction l with
    | nil => simp
    | cons k l ih =>
      cases hk : e k with
      | none => simp only [List.filterMap_cons, hk, Option.map_none, List.map_cons, List.sum_cons]; omega
      | some v =>
        have := (h k v hk).1
        simp only [List.filterMap_cons, hk, Option.map_some, List.map_cons, List.sum_cons, List.length_append,
          List.length_cons, List.length_nil]
        simp only [List.length_append, List.length_cons, List.length_nil] at ih
        omega
  have h2 : ((Extension.all).map fun k => k.name.length + Spec.valueCap k + 2).sum = 309 := by decide
  have := key Extension.all
  rw [h2] at this
  simpa [Exts.entries] using this

/-- Option acknowledgements of the server are short. -/
theorem c28_oack_size {S : SigScheme} (cfg : SrvCfg S) (hb : cfg.maxBlock ≤ 65535) (hw : cfg.maxWindow ≤ 65535)
    (session : Bytes) (hses : session.length = 32) (handshake : Level) (ce : Exts) (kind : ReqKind)
    (hkind : ∀ s, kind = .read (some s) → s < 2 ^ 64) (u : Exts) (o : Opts) (k : Option SessionKeys)
    (h : srvNegotiate cfg session handshake ce kind = .ok (u, o, k)) :
    (Packet.optionalAck u).toBytes.length ≤ 311 := by
  have := exts_toBytes_le u (srvNegotiate_short cfg hb hw session hses handshake ce kind hkind u o k h)
  simp only [Packet.toBytes, be16, List.length_append, List.length_cons, List.length_nil]
  omega

/-- src/buffer.rs:127-134 `create_max_buffer`: the receive buffer for a block size. -/
def recvBuffer (blockSize : Nat) : Nat := max (blockSize + 4) 516

/-- **C28**: in an established transfer every datagram is at most the negotiated block size plus 4 bytes long and
so fits the receive buffer of the peer: data packets with a payload of at most `o.payload` bytes, and all other packets up
to 516 bytes; at the protocol and full level it is always exactly that long, whatever is sent. -/
theorem c28_datagram_size (A : Aead) (o : Opts) (ho : 512 ≤ o.blockSize) (nonce : Bytes) (hn : nonce.length = 24)
    (p : Packet) (d : Bytes) (hp : (∃ b x, p = .data b x ∧ x.length ≤ o.payload) ∨
      ((∀ b x, p ≠ .data b x) ∧ p.toBytes.length ≤ 516))
    (h : protect A o.level (o.payload + 4) nonce p.toBytes = .ok d) :
    d.length ≤ o.blockSize + 4 ∧ d.length ≤ recvBuffer o.blockSize ∧
    (o.level = .protocol ∨ o.level = .full → d.length = o.blockSize + 4) := by
  have hdata : (packetType p.toBytes = some .data) ↔ ∃ b x, p = .data b x := by
    constructor
    · intro h
      cases p with
      | data b x => exact ⟨b, x, rfl⟩
      | read r => exact absurd h (by simp [packetType, Packet.toBytes, be16, readU16, PacketType.repr]; decide)
      | write r => exact absurd h (by simp [packetType, Packet.toBytes, be16, readU16, PacketType.repr]; decide)
      | ack r => exact absurd h (by simp [packetType, Packet.toBytes, be16, readU16, PacketType.repr]; decide)
      | error r m => exact absurd h (by simp [packetType, Packet.toBytes, be16, readU16, PacketType.repr]; decide)
      | optionalAck r => exact absurd h (by simp [packetType, Packet.toBytes, be16, readU16, PacketType.repr]; decide)
    · rintro ⟨b, x, rfl⟩
      simp [packetType, Packet.toBytes, be16, readU16, PacketType.repr]
      decide
  have hlen : ∀ b x, p = .data b x → p.toBytes.length = x.length + 4 := by
    rintro b x rfl
    simp [Packet.toBytes, be16]
  have hne : p.toBytes ≠ [] := by cases p <;> simp [Packet.toBytes, be16]
  have hpk : sealPacket A nonce p.toBytes (o.payload + 4) = .ok d → d.length = o.payload + 45 := by
    intro h
    by_cases hs : p.toBytes.length ≤ o.payload + 4
    · obtain ⟨q, ct, tag, h1, -, -, h2, h3, -⟩ := c27_packet A nonce p.toBytes (o.payload + 4) hn hne hs
      rw [h1] at h
      cases h
      simp only [List.length_append]; omega
    · unfold sealPacket at h
      rw [(c26_padding_round_trip p.toBytes (o.payload + 4)).2 (.inr (by omega))] at h
      cases h
  have hsmall : o.level = .none ∨ o.level = .optionalData ∨ o.level = .optionalProtocol → o.payload = o.blockSize := by
    intro hl
    unfold Opts.payload
    rcases hl with hl | hl | hl <;> rw [hl]
  have main : d.length ≤ o.blockSize + 4 ∧ (o.level = .protocol ∨ o.level = .full → d.length = o.blockSize + 4) := by
    unfold protect at h
    split at h
    · rename_i hl
      have := hpk h
      have hp : o.payload = o.blockSize - 16 - 1 - 24 := by unfold Opts.payload; rw [hl]
      exact ⟨by omega, fun _ => by omega⟩
    · rename_i hl
      have := hpk h
      have hp : o.payload = o.blockSize - 16 - 1 - 24 := by unfold Opts.payload; rw [hl]
      exact ⟨by omega, fun _ => by omega⟩
    · rename_i hl
      have hpl : o.payload = o.blockSize - 16 - 24 := by unfold Opts.payload; rw [hl]
      refine ⟨?_, by rw [hl]; simp⟩
      by_cases hd : packetType p.toBytes = some .data
      · rw [if_pos hd] at h
        obtain ⟨b, x, hbx⟩ := hdata.mp hd
        have hl4 := hlen b x hbx
        obtain ⟨ct, tag, h1, -, h2, h3, -⟩ :=
          c27_data A nonce (p.toBytes.take 4) (p.toBytes.drop 4) hn (by simp; omega)
        rw [List.take_append_drop] at h1
        rw [h1] at h
        cases h
        rcases hp with ⟨b', x', hb', hx'⟩ | ⟨hn', -⟩
        · rw [hbx] at hb'; cases hb'
          simp only [List.length_append, List.length_take, List.length_drop] at h2 ⊢
          omega
        · exact absurd hbx (hn' b x)
      · rw [if_neg hd] at h
        cases h
        rcases hp with ⟨b', x', hb', -⟩ | ⟨-, hs⟩
        · exact absurd (hdata.mpr ⟨b', x', hb'⟩) hd
        · omega
    all_goals
      rename_i hl
      have hpl := hsmall (by rw [hl]; simp)
      cases h
      refine ⟨?_, by rw [hl]; simp⟩
      rcases hp with ⟨b', x', hb', hx'⟩ | ⟨-, hs⟩
      · have := hlen b' x' hb'; omega
      · omega
  refine ⟨main.1, ?_, main.2⟩
  unfold recvBuffer
  omega

/-- Acknowledgements and the server's option acknowledgements can always be sent, at every level. -/
theorem c28_ack_and_oack_fit (A : Aead) (o : Opts) (ho : 512 ≤ o.blockSize) (nonce : Bytes) (hn : nonce.length = 24)
    (p : Packet) (hp : (∃ b, p = .ack b) ∨ (∃ u, p = .optionalAck u ∧ p.toBytes.length ≤ 311)) :
    ∃ d, protect A o.level (o.payload + 4) nonce p.toBytes = .ok d ∧ d.length ≤ o.blockSize + 4 := by
  have hlen : p.toBytes.length ≤ 311 := by
    rcases hp with ⟨b, rfl⟩ | ⟨u, -, h⟩
    · simp [Packet.toBytes, be16]
    · exact h
  have hne : p.toBytes ≠ [] := by cases p <;> simp [Packet.toBytes, be16]
  have hnd : ∀ b x, p ≠ .data b x := by
    rintro b x rfl
    rcases hp with ⟨b, h⟩ | ⟨u, h, -⟩ <;> cases h
  have ht : packetType p.toBytes ≠ some .data := by
    rcases hp with ⟨b, rfl⟩ | ⟨u, rfl, -⟩ <;>
      simp [packetType, Packet.toBytes, be16, readU16, PacketType.repr] <;> decide
  have hpay : 471 ≤ o.payload := by unfold Opts.payload; split <;> omega
  have : ∃ d, protect A o.level (o.payload + 4) nonce p.toBytes = .ok d := by
    obtain ⟨q, ct, tag, h1, -⟩ := c27_packet A nonce p.toBytes (o.payload + 4) hn hne (by omega)
    unfold protect
    split
    · exact ⟨_, h1⟩
    · exact ⟨_, h1⟩
    · rw [if_neg ht]; exact ⟨_, rfl⟩
    all_goals exact ⟨_, rfl⟩
  obtain ⟨d, hd⟩ := this
  exact ⟨d, hd, (c28_datagram_size A o ho nonce hn p d (.inr ⟨hnd, by omega⟩) hd).1⟩

/-- **C28** (partial), the encrypted request: always exactly the *requested* block size plus 4 bytes long. Missing: that it
fits the buffer of the server, see `c28_encrypted_request_too_long`. -/
theorem c28_encrypted_request_partial (A : Aead) (nonce pub b d : Bytes) (blockSize : Nat) (hn : nonce.length = 24)
    (hpub : pub.length = 32) (h : sealInitial A nonce pub b (blockSize + 4) = .ok d) : d.length = blockSize + 4 := by
  by_cases hc : b ≠ [] ∧ b.length + 73 ≤ blockSize + 4
  · obtain ⟨p, ct, tag, h1, -, -, h2, h3, -⟩ := c27_initial A nonce pub b (blockSize + 4) hn hpub hc.1 hc.2
    rw [h1] at h
    cases h
    simp only [List.length_append]; omega
  · exfalso
    unfold sealInitial at h
    split at h
    · cases h
    · rw [(c26_padding_round_trip b _).2 (by
        rcases Classical.em (b = []) with h0 | h0
        · exact .inl h0
        · refine .inr ?_
          have : ¬ (b.length + 73 ≤ blockSize + 4) := fun h1 => hc ⟨h0, h1⟩
          omega)] at h
      cases h

/-- Finding: the block size is negotiated by that very request, so if the client asks for a larger block size than the server
allows, the encrypted request is longer than the server's receive buffer (and is cut off by the socket): such a
client never gets an answer. -/
theorem c28_encrypted_request_too_long {S : SigScheme} (cfg : SrvCfg S) (A : Aead) (nonce pub b d : Bytes) (blockSize : Nat)
    (hn : nonce.length = 24) (hpub : pub.length = 32) (hb : 512 < blockSize ∧ cfg.maxBlock < blockSize)
    (h : sealInitial A nonce pub b (blockSize + 4) = .ok d) : recvBuffer cfg.maxBlock < d.length := by
  rw [c28_encrypted_request_partial A nonce pub b d blockSize hn hpub h]
  unfold recvBuffer
  omega

/-! ### C18 on the wire -/

/-- **C18** on the wire: the request and the option acknowledgement survive encoding and decoding, so that
`c18_agreement` applies to what actually arrives. -/
theorem c18_wire {S : SigScheme} (cfg : SrvCfg S) (hb : cfg.maxBlock ≤ 65535) (hw : cfg.maxWindow ≤ 65535)
    (co : Opts) (keys : InitialKeys S) (hkey : keys.sessionPub.length = 32)
    (hco : co.blockSize ≤ 65535 ∧ co.window ≤ 65535 ∧ ∀ s, co.fileSize = some s → s < 2 ^ 64) (hr : co.retry < 2 ^ 64)
    (name : Bytes) (hname : Spec.Text name) (session : Bytes) (hses : session.length = 32) (handshake : Level)
    (kind : ReqKind) (hkind : ∀ s, kind = .read (some s) → s < 2 ^ 64) (u : Exts) (o : Opts) (k : Option SessionKeys)
    (h : srvNegotiate cfg session handshake (createExtensions co keys) kind = .ok (u, o, k)) :
    Packet.fromBytes (Packet.read ⟨name, createExtensions co keys⟩).toBytes = .ok (.read ⟨name, createExtensions co keys⟩) ∧
    Packet.fromBytes (Packet.write ⟨name, createExtensions co keys⟩).toBytes = .ok (.write ⟨name, createExtensions co keys⟩) ∧
    ((∃ e, (u e).isSome) → Packet.fromBytes (Packet.optionalAck u).toBytes = .ok (.optionalAck u)) := by
  have h1 := createExtensions_short co keys hkey hco hr
  have h2 := srvNegotiate_short cfg hb hw session hses handshake _ kind hkind u o k h
  refine ⟨c01_round_trip _ ⟨hname, fun k v hv => (h1 k v hv).2⟩, c01_round_trip _ ⟨hname, fun k v hv => (h1 k v hv).2⟩,
    fun he => c01_round_trip _ ⟨he, fun k v hv => (h2 k v hv).2⟩⟩

end Tftp

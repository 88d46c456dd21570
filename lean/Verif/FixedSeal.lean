import Verif.FixedText
import Verif.Machine
import Verif.SizesRun
import Verif.Stream
import Verif.ServerAdmit
/-
C91: sealing packets and sealed files in fixed memory (builds without `alloc`): the packet buffer holds 1429 bytes, the block buffer 1425 (src/lib.rs:28-33).
Growing a buffer beyond that is an error; setting its length beyond it would be undefined behaviour (`Out.panic` here, `unsafe` in src/buffer.rs:86-159).
-/
namespace Tftp
open Spec

/-- `heapless::Vec::push` in a vector of this capacity (src/encryption.rs:415-417). -/
def pushIn (cap : Nat) (b : Bytes) (x : UInt8) : Option Bytes := if b.length < cap then some (b ++ [x]) else none

/-- src/buffer.rs:78-85 `extend_from_slice` without `alloc`. -/
def extendIn (cap : Nat) (b d : Bytes) : Option Bytes := if b.length + d.length ≤ cap then some (b ++ d) else none

/-- The loop src/encryption.rs:412-418. -/
def pushesIn (cap : Nat) (b : Bytes) (x : UInt8) : Nat → Option Bytes
  | 0 => some b
  | n + 1 => match pushIn cap b x with
    | some b => pushesIn cap b x n
    | none => none

/-- src/encryption.rs:402-420 `apply_bit_padding` without `alloc`. -/
def applyPaddingIn (cap : Nat) (b : Bytes) (expected : Nat) : Option Bytes :=
  match b.getLast? with
  | none => none
  | some last =>
    if expected < b.length then none
    else pushesIn cap b (if last.toNat % 2 = 1 then 0 else 255) (expected - b.length + 1)

/-- src/encryption.rs:272-288 `Encryptor::encrypt` without `alloc`. -/
def encryptIn (cap : Nat) (A : Aead) (nonce b : Bytes) (from' : Nat) : Out Bytes :=
  if b.length < from' then .panic
  else
    let c := A.enc nonce (b.drop from')
    match extendIn cap (b.take from' ++ c.1) c.2 with
    | none => .err
    | some x => match extendIn cap x nonce with
      | none => .err
      | some y => .ok y

/-- src/encrypted_packet.rs:158-166 without `alloc`. -/
def sealPacketIn (cap : Nat) (A : Aead) (nonce b : Bytes) (expected : Nat) : Out Bytes :=
  match applyPaddingIn cap b expected with
  | none => .err
  | some p => encryptIn cap A nonce p 0

/-- src/encrypted_packet.rs:86-106 without `alloc`. -/
def sealInitialIn (cap : Nat) (A : Aead) (nonce pub b : Bytes) (expected : Nat) : Out Bytes :=
  if expected < 1 + 16 + 32 + 24 then .err
  else match applyPaddingIn cap b (expected - (1 + 16 + 32 + 24)) with
    | none => .err
    | some p => match encryptIn cap A nonce p 0 with
      | .ok c => match extendIn cap c pub with
        | some d => .ok d
        | none => .err
      | .err => .err
      | .panic => .panic

/-- src/encrypted_packet.rs:107-123 without `alloc`: ciphertext and nonce are copied to a new buffer. -/
def openInitialIn (cap : Nat) (A : Aead) (ct nonce : Bytes) : Out Bytes :=
  match extendIn cap [] ct with
  | none => .err
  | some b => match extendIn cap b nonce with
    | none => .err
    | some b => openPacket A b

/-- src/server/connection.rs:127-159, src/client/encryption_socket.rs:93-134 without `alloc` (as `protect`). -/
def protectIn (cap : Nat) (A : Aead) (level : Level) (size : Nat) (nonce b : Bytes) : Out Bytes :=
  match level with
  | .protocol | .full => sealPacketIn cap A nonce b size
  | .data => if packetType b = some .data then encryptIn cap A nonce b 4 else .ok b
  | .optionalData | .optionalProtocol | .none => .ok b

/-! ### Specification -/

/-- Specification: what becomes of a computation if its result has to fit in so many bytes: the same, but an error if the result is longer. -/
def Spec.Confined (cap : Nat) (free fixed : Out Bytes) : Prop :=
  (∀ d, fixed = .ok d ↔ free = .ok d ∧ d.length ≤ cap) ∧ (fixed = .panic ↔ free = .panic)

/-! ### Buffers -/

theorem pushesIn_eq (cap : Nat) (b : Bytes) (x : UInt8) (n : Nat) (h : b.length ≤ cap) :
    pushesIn cap b x n = if b.length + n ≤ cap then some (b ++ List.replicate n x) else none := by
  induction n generalizing b with
  | zero => simp [pushesIn, h]
  | succ n ih =>
    unfold pushesIn pushIn
    by_cases hb : b.length < cap
    · simp only [if_pos hb]
      rw [ih (b ++ [x]) (by simp; omega)]
      simp only [List.length_append, List.length_cons, List.length_nil, List.append_assoc]
      rw [show b.length + (0 + 1) + n = b.length + (n + 1) by omega]
      rfl
    · simp only [if_neg hb]
      rw [if_neg (by omega)]

theorem applyPaddingIn_eq (cap : Nat) (b : Bytes) (n : Nat) (h : b.length ≤ cap) :
    applyPaddingIn cap b n = (applyPadding b n).bind fun p => if p.length ≤ cap then some p else none := by
  unfold applyPaddingIn applyPadding
  cases b.getLast? with
  | none => rfl
  | some last =>
    simp only
    split
    · rfl
    · rw [pushesIn_eq cap b _ _ h]
      simp

/-- The padded packet has the expected size and one byte. -/
theorem applyPadding_length {b : Bytes} {n : Nat} {p : Bytes} (h : applyPadding b n = some p) : p.length = n + 1 ∧ b.length ≤ n := by
  unfold applyPadding at h
  split at h
  · cases h
  · simp only at h
    split at h
    · cases h
    · simp only [Option.some.injEq] at h
      subst h
      simp only [List.length_append, List.length_replicate]
      omega

theorem encrypt_length {A : Aead} {nonce b d : Bytes} {k : Nat} (h : encrypt A nonce b k = .ok d) : d.length = b.length + 16 + nonce.length ∧ k ≤ b.length := by
  unfold encrypt at h
  split at h
  · cases h
  · next hk =>
    simp only [Out.ok.injEq] at h
    subst h
    simp only [List.length_append, List.length_take, A.enc_length, A.tag_length, List.length_drop]
    omega

theorem encryptIn_eq (cap : Nat) (A : Aead) (nonce b : Bytes) (k : Nat) :
    encryptIn cap A nonce b k = match encrypt A nonce b k with
      | .ok d => if d.length ≤ cap then .ok d else .err
      | .err => .err
      | .panic => .panic := by
  unfold encryptIn encrypt extendIn
  split
  · rfl
  · simp only
    split
    · next h =>
      rw [if_neg]
      split at h
      · cases h
      · simp only [List.length_append] at *
        omega
    · next x h =>
      split at h
      · cases h
        simp only [List.length_append] at *
        split <;> split at * <;> simp_all
        all_goals omega
      · cases h

theorem confined_encrypt (cap : Nat) (A : Aead) (nonce b : Bytes) (k : Nat) : Confined cap (encrypt A nonce b k) (encryptIn cap A nonce b k) := by
  rw [encryptIn_eq]
  cases h : encrypt A nonce b k with
  | ok d =>
    simp only
    split
    · exact ⟨fun x => ⟨fun e => by cases e; exact ⟨rfl, by assumption⟩, fun e => by rw [e.1]⟩, by simp⟩
    · next hl => exact ⟨fun x => ⟨fun e => (by cases e), fun e => (by cases e.1; exact absurd e.2 hl)⟩, by simp⟩
  | err => exact ⟨fun x => ⟨fun e => (by cases e), fun e => (by cases e.1)⟩, by simp⟩
  | panic => exact ⟨fun x => ⟨fun e => (by cases e), fun e => (by cases e.1)⟩, by simp⟩

theorem confined_packet (cap : Nat) (A : Aead) (nonce b : Bytes) (n : Nat) (h : b.length ≤ cap) :
    Confined cap (sealPacket A nonce b n) (sealPacketIn cap A nonce b n) := by
  unfold sealPacket sealPacketIn
  rw [applyPaddingIn_eq cap b n h]
  cases hp : applyPadding b n with
  | none => exact ⟨fun x => ⟨fun e => (by cases e), fun e => (by cases e.1)⟩, by simp⟩
  | some p =>
    simp only [Option.bind_some]
    by_cases hl : p.length ≤ cap
    · simp only [if_pos hl]; exact confined_encrypt ..
    · simp only [if_neg hl]
      refine ⟨fun x => ⟨fun e => (by cases e), fun e => ?_⟩, ?_⟩
      · have := encrypt_length e.1; have := e.2; omega
      · simp [encrypt]

theorem confined_initial (cap : Nat) (A : Aead) (nonce pub b : Bytes) (n : Nat) (h : b.length ≤ cap) :
    Confined cap (sealInitial A nonce pub b n) (sealInitialIn cap A nonce pub b n) := by
  unfold sealInitial sealInitialIn
  split
  · exact ⟨fun x => ⟨fun e => (by cases e), fun e => (by cases e.1)⟩, by simp⟩
  · rw [applyPaddingIn_eq cap b _ h]
    cases hp : applyPadding b (n - (1 + 16 + 32 + 24)) with
    | none => exact ⟨fun x => ⟨fun e => (by cases e), fun e => (by cases e.1)⟩, by simp⟩
    | some p =>
      simp only [Option.bind_some]
      have hno : encrypt A nonce p 0 = .ok (p.take 0 ++ (A.enc nonce (p.drop 0)).1 ++ (A.enc nonce (p.drop 0)).2 ++ nonce) := by simp [encrypt]
      generalize p.take 0 ++ (A.enc nonce (p.drop 0)).1 ++ (A.enc nonce (p.drop 0)).2 ++ nonce = c at hno
      have hlen := (encrypt_length hno).1
      rw [hno]
      by_cases hl : p.length ≤ cap
      · simp only [if_pos hl, encryptIn_eq, hno]
        by_cases hc : c.length ≤ cap
        · simp only [if_pos hc]
          unfold extendIn
          by_cases hd : c.length + pub.length ≤ cap
          · simp only [if_pos hd]
            exact ⟨fun x => ⟨fun e => by cases e; exact ⟨rfl, by simpa using hd⟩, fun e => e.1⟩, by simp⟩
          · simp only [if_neg hd]
            exact ⟨fun x => ⟨fun e => (by cases e), fun e => by cases e.1; have := e.2; simp only [List.length_append] at this; omega⟩, by simp⟩
        · simp only [if_neg hc]
          exact ⟨fun x => ⟨fun e => (by cases e), fun e => by cases e.1; have := e.2; simp only [List.length_append] at this; omega⟩, by simp⟩
      · simp only [if_neg hl]
        exact ⟨fun x => ⟨fun e => (by cases e), fun e => by cases e.1; have := e.2; simp only [List.length_append] at this; omega⟩, by simp⟩

/-- **C91**: sealing. A packet which is in the packet buffer is sealed as with an allocator if the sealed datagram fits in that buffer, and is refused
with an error (not a panic) if it does not; a sealed request is opened as with an allocator. -/
theorem c91_seal (A : Aead) (nonce b : Bytes) (hb : b.length ≤ packetBlockCap) :
    (∀ level size, Confined packetBlockCap (protect A level size nonce b) (protectIn packetBlockCap A level size nonce b)) ∧
      (∀ pub size, Confined packetBlockCap (sealInitial A nonce pub b size) (sealInitialIn packetBlockCap A nonce pub b size)) ∧
      (∀ ct n pub, parseInitial b = some (ct, n, pub) → openInitialIn packetBlockCap A ct n = openInitial A ct n) := by
  have hsame : Confined packetBlockCap (.ok b) (.ok b) :=
    ⟨fun d => ⟨fun e => by cases e; exact ⟨rfl, hb⟩, fun e => e.1⟩, by simp⟩
  refine ⟨fun level size => ?_, fun pub size => confined_initial _ _ _ _ _ _ hb, fun ct n pub h => ?_⟩
  · cases level <;> simp only [protect, protectIn]
    case protocol => exact confined_packet _ _ _ _ _ hb
    case full => exact confined_packet _ _ _ _ _ hb
    case data =>
      split
      · exact confined_encrypt ..
      · exact hsame
    all_goals exact hsame
  · have hl : ct.length + n.length ≤ b.length := by
      unfold parseInitial at h
      split at h
      · next p' n' c' hp hn hc =>
        split at h
        · simp only [Option.some.injEq, Prod.mk.injEq] at h
          obtain ⟨rfl, rfl, rfl⟩ := h
          have h1 : n'.length = 24 := by
            unfold rsliceToArray at hn
            split at hn
            · simp only [Option.some.injEq] at hn
              subst hn
              simp only [List.length_take, List.length_drop]
              omega
            · cases hn
          have h2 : c'.length = b.length - 56 ∧ 56 ≤ b.length := by
            unfold sliceAtEnd at hc
            split at hc
            · simp only [Option.some.injEq] at hc
              subst hc
              simp only [List.length_take]
              omega
            · cases hc
          omega
        · cases h
      · cases h
    unfold openInitialIn openInitial extendIn
    simp only [List.nil_append, List.length_nil]
    rw [if_pos (by omega)]
    simp only
    rw [if_pos (by omega)]

/-- Non-vacuity and contrast: with a fixed buffer of 60 bytes an acknowledgement padded to 19 bytes is sealed (60 bytes), padded to 20 bytes it is an error. -/
example (A : Aead) (nonce : Bytes) (hn : nonce.length = 24) :
    (∃ d, sealPacketIn 60 A nonce (Packet.ack 1).toBytes 19 = .ok d ∧ d.length = 60) ∧ sealPacketIn 60 A nonce (Packet.ack 1).toBytes 20 = .err ∧
      ∃ d, sealPacket A nonce (Packet.ack 1).toBytes 20 = .ok d ∧ d.length = 61 := by
  have hp : ∀ n p, applyPadding (Packet.ack 1).toBytes n = some p → ∃ d, sealPacket A nonce (Packet.ack 1).toBytes n = .ok d ∧ d.length = n + 41 := by
    intro n p h
    unfold sealPacket
    rw [h]
    simp only [encrypt, Nat.not_lt_zero, ↓reduceIte]
    refine ⟨_, rfl, ?_⟩
    have := (applyPadding_length h).1
    simp only [List.length_append, List.length_take, A.enc_length, A.tag_length, List.length_drop, hn]
    omega
  have hb : (Packet.ack 1).toBytes.length ≤ 60 := by decide
  obtain ⟨d, h1, h2⟩ := hp 19 _ rfl
  obtain ⟨e, h3, h4⟩ := hp 20 _ rfl
  refine ⟨⟨d, ((confined_packet 60 A nonce _ 19 hb).1 d).mpr ⟨h1, by omega⟩, h2⟩, ?_, ⟨e, h3, h4⟩⟩
  have hc := confined_packet 60 A nonce _ 20 hb
  cases hs : sealPacketIn 60 A nonce (Packet.ack 1).toBytes 20 with
  | err => rfl
  | ok x =>
    have := (hc.1 x).mp hs
    rw [h3] at this
    cases this.1
    omega
  | panic =>
    have := hc.2.mp hs
    rw [h3] at this
    cases this

/-- **C91**: transfers. With any options a server or client can have agreed on (blocks of 512 to 1425 bytes), every packet of a transfer is sealed as with an
allocator: the fixed buffer is never too small. -/
theorem c91_transfer (A : Aead) (o : Opts) (ho : 512 ≤ o.blockSize ∧ o.blockSize ≤ 1425) (nonce : Bytes) (hn : nonce.length = 24) (p : Packet)
    (hp : (∃ b x, p = .data b x ∧ x.length ≤ o.payload) ∨ ((∀ b x, p ≠ .data b x) ∧ p.toBytes.length ≤ 516)) :
    protectIn packetBlockCap A o.level (o.payload + 4) nonce p.toBytes = protect A o.level (o.payload + 4) nonce p.toBytes := by
  have hpay : o.payload ≤ o.blockSize := by unfold Opts.payload; split <;> omega
  have hb : p.toBytes.length ≤ packetBlockCap := by
    unfold packetBlockCap
    rcases hp with ⟨b, x, rfl, hx⟩ | ⟨-, hx⟩
    · simp only [Packet.toBytes, be16, List.length_append, List.length_cons, List.length_nil]; omega
    · omega
  have hc := (c91_seal A nonce _ hb).1 o.level (o.payload + 4)
  cases h : protect A o.level (o.payload + 4) nonce p.toBytes with
  | ok d =>
    have := (c28_datagram_size A o ho.1 nonce hn p d hp h).1
    exact (hc.1 d).mpr ⟨h, by unfold packetBlockCap; omega⟩
  | panic => exact hc.2.mpr h
  | err =>
    cases h2 : protectIn packetBlockCap A o.level (o.payload + 4) nonce p.toBytes with
    | err => rfl
    | ok d => have := ((hc.1 d).mp h2).1; rw [h] at this; cases this
    | panic => have := hc.2.mp h2; rw [h] at this; cases this

/-- **C91**: refusals. Every refusal of a server started from the command line, sealed or not, is made in fixed memory as with an allocator. -/
theorem c91_refusals {S} {v : Srv S} {a : ServerArgs} {files : Bytes → Option Bytes} {signer : Bytes → AuthKey S} (h : StartedWith v a files signer)
    (dg : Bytes) (io : NewIo) (b : Bytes) (hb : b ∈ v.answers dg io) :
    ∃ code text, text.length ≤ 140 ∧ (Packet.error code text).toBytes.length ≤ packetBlockCap ∧ (b = (Packet.error code text).toBytes ∨
      ∃ A o n, (v.openRequest dg).1 = some A ∧ sealPacketIn packetBlockCap A (v.nonce n) (Packet.error code text).toBytes o = .ok b) := by
  obtain ⟨-, -, h3, -, -, h6, -⟩ := started_with h
  obtain ⟨code, text, hl, hx⟩ := c89_refusals v dg io b hb
  have hlen : (Packet.error code text).toBytes.length ≤ packetBlockCap := by
    unfold packetBlockCap
    simp only [Packet.toBytes, be16, List.length_append, List.length_cons, List.length_nil]; omega
  refine ⟨code, text, hl, hlen, ?_⟩
  rcases hx with hx | ⟨A, o, n, g1, g2⟩
  · exact .inl hx
  · have := (c28_refusals v (by omega) 0 dg io).2 b hb
    exact .inr ⟨A, o, n, g1, ((confined_packet _ A _ _ o hlen).1 b).mpr ⟨g2, by unfold packetBlockCap; omega⟩⟩

/-- **C91**, the exception: while the client's socket is still set up for the handshake, packets other than the request are padded to the whole block
(`c28_complaint_too_long`, `c28_unsealed_level_too_long`). With blocks of more than 1384 bytes such a packet cannot be sealed in fixed memory: it is not sent
and the client ends with an error; with an allocator it is sent and is too long for the server. -/
theorem c91_handshake_packet (A : Aead) (nonce b : Bytes) (hn : nonce.length = 24) (hb : b.length ≤ packetBlockCap) (block : Nat) (hbl : 1384 < block) :
    sealPacketIn packetBlockCap A nonce b (block + 4) = .err ∧
      ∀ d, sealPacket A nonce b (block + 4) = .ok d → d.length = block + 45 := by
  have hlen : ∀ d, sealPacket A nonce b (block + 4) = .ok d → d.length = block + 45 := by
    intro d hd
    unfold sealPacket at hd
    split at hd
    · cases hd
    · next p hp => have := (applyPadding_length hp).1; have := (encrypt_length hd).1; omega
  refine ⟨?_, hlen⟩
  have hc := confined_packet packetBlockCap A nonce b (block + 4) hb
  cases h : sealPacketIn packetBlockCap A nonce b (block + 4) with
  | err => rfl
  | ok d =>
    have := (hc.1 d).mp h
    have h2 := hlen d this.1
    unfold packetBlockCap at this
    omega
  | panic =>
    have := hc.2.mp h
    unfold sealPacket at this
    split at this
    · cases this
    · simp [encrypt] at this

/-! ### Sealed files -/

/-- `heapless::Vec::set_len` (src/buffer.rs:87-95, 148-159): the vector shows whatever its memory holds; beyond the capacity it is undefined (`none`). -/
def setLen (mem : Bytes) (n : Nat) : Option Bytes := if n ≤ mem.length then some (mem.take n) else none

/-- What is read or copied to the beginning of a buffer (src/buffer.rs:28-34 `write_bytes` at 0, `read`), then `truncate`d to it
(encrypted_stream_reader.rs:65-68, encrypted_stream_writer.rs:70-73). -/
def filled (buf b : Bytes) : Bytes := (b ++ buf.drop b.length).take b.length

/-- encryption.rs:209-228 `StreamEncryptor::encrypt` in a buffer of this capacity: there must be room for the tag, otherwise the block is not counted. -/
def streamEncryptIn (cap : Nat) (A : StreamAead) (nonce : Bytes) (st : Option Nat) (b : Bytes) (size : Nat) : Option Nat × Except StreamErr Bytes :=
  match st with
  | none => (none, .error .unsupported)
  | some i =>
    if size = b.length then
      if i = streamMax then (some i, .error .invalidData)
      else if b.length + 16 ≤ cap then (some (i + 1), .ok (A.enc nonce i false b)) else (some i, .error .invalidData)
    else if b.length + 16 ≤ cap then (none, .ok (A.enc nonce i true b)) else (none, .error .invalidData)

/-- encrypted_stream_reader.rs:40-89 `read` without `alloc`: the block buffer lies in memory `mem`, whatever it holds. `none`: undefined behaviour. -/
def StreamIn.readIn (mem : Bytes) (A : StreamAead) (s : StreamIn) (len : Nat) (k : Option Nat) : Option (StreamIn × Except StreamErr Bytes) :=
  if len < minStream ∨ len > 1425 then some (s, .error .unsupported)
  else do
    if s.header then let _ ← setLen mem len
    let head := if s.header then be16 (UInt16.ofNat len) ++ s.nonce else []
    let size := len - 16 - head.length
    let buf ← setLen mem size
    match k with
    | none => some (s, .error .io)
    | some k =>
      let b := s.rest.take (min k size)
      let s := { s with rest := s.rest.drop b.length }
      match streamEncryptIn mem.length A s.nonce s.pos (filled buf b) size with
      | (pos, .error e) => some ({ s with pos := pos }, .error e)
      | (pos, .ok c) => some ({ s with pos := pos, header := false }, .ok (head ++ c))

/-- encrypted_stream_writer.rs:40-99 `write` without `alloc`. -/
def StreamOut.writeIn (mem : Bytes) (A : StreamAead) (s : StreamOut) (data : Bytes) (io : WriteIo) : Option (StreamOut × Except StreamErr Nat) :=
  match s.parse data with
  | .error e => some (s, .error e)
  | .ok (s, from') =>
    match s.size, s.dec with
    | some size, some (nonce, pos) => do
      let buf ← setLen mem size
      let body := data.drop from'
      if body.length > buf.length then some (s, .error .invalidData)
      else match streamDecrypt A nonce pos (filled buf body) (size - from') with
        | (pos, .error e) => some ({ s with dec := some (nonce, pos) }, .error e)
        | (pos, .ok p) =>
          let s := { s with dec := some (nonce, pos) }
          match io.taken p with
          | some w => some ({ s with out := s.out ++ w, header := false }, .ok (w.length + from' + 16))
          | none => some (s, .error .io)
    | _, _ => some (s, .error .unsupported)

theorem filled_eq (buf b : Bytes) : filled buf b = b := by
  unfold filled
  rw [List.take_left]

/-- **C91**: sealed files are read in fixed memory as with an allocator, whatever the memory of the block buffer held before: its length is never set beyond
its capacity, the tag always fits, and no stale byte is delivered. -/
theorem c91_stream_read (mem : Bytes) (hm : mem.length = 1425) (A : StreamAead) (s : StreamIn) (len : Nat) (k : Option Nat) :
    s.readIn mem A len k = some (s.read A len k) := by
  unfold StreamIn.readIn StreamIn.read
  by_cases hl : len < minStream ∨ len > 1425
  · simp only [if_pos hl]
  · simp only [if_neg hl]
    have h1 : setLen mem len = some (mem.take len) := by unfold setLen; rw [if_pos (by omega)]
    have h2 : ∀ n, setLen mem (len - 16 - n) = some (mem.take (len - 16 - n)) := by intro n; unfold setLen; rw [if_pos (by omega)]
    have he : ∀ b : Bytes, b.length ≤ len - 16 → ∀ n st size, streamEncryptIn mem.length A n st b size = streamEncrypt A n st b size := by
      intro b hb n st size
      have hmin : 37 ≤ len := by unfold minStream at hl; omega
      have : b.length + 16 ≤ mem.length := by omega
      unfold streamEncryptIn streamEncrypt
      cases st with
      | none => rfl
      | some i => simp only [if_pos this]
    have hb : ∀ n m, (s.rest.take (min m (len - 16 - n))).length ≤ len - 16 := by
      intro n m; simp only [List.length_take]; omega
    cases hh : s.header <;>
    · simp only [h1, h2, Option.bind_eq_bind, Option.bind_some, ↓reduceIte, Bool.false_eq_true, filled_eq]
      cases k with
      | none => rfl
      | some k =>
        simp only
        rw [he _ (hb _ _)]
        split <;> next heq => rw [heq]

/-- Contrast: a block buffer for 1424 bytes would be overrun by the largest block, and one for 1000 bytes by the first. -/
example (A : StreamAead) (mem nonce file : Bytes) (n : Nat) (hm : mem.length = n) (h37 : 37 ≤ n + 1) (hn : n ≤ 1424) :
    (StreamIn.new nonce file).readIn mem A (n + 1) (some 5) = none := by
  have h1 : setLen mem (n + 1) = none := by unfold setLen; rw [if_neg (by omega)]
  unfold StreamIn.readIn StreamIn.new minStream
  rw [if_neg (by omega)]
  simp only [↓reduceIte, h1, Option.bind_eq_bind, Option.bind_none]

/-- **C91**: sealed files are written in fixed memory as with an allocator, by a writer whose block size came from the file. -/
theorem c91_stream_write (mem : Bytes) (hm : mem.length = 1425) (A : StreamAead) (s : StreamOut) (hs : ∀ n, s.size = some n → n ≤ 1425) (data : Bytes) (io : WriteIo) :
    s.writeIn mem A data io = some (s.write A data io) ∧ ∀ n, (s.write A data io).1.size = some n → n ≤ 1425 := by
  unfold StreamOut.writeIn StreamOut.write
  cases hp : s.parse data with
  | error e => exact ⟨rfl, hs⟩
  | ok r =>
    obtain ⟨s', from'⟩ := r
    have hs' : ∀ n, s'.size = some n → n ≤ 1425 := by
      intro n hn
      unfold StreamOut.parse at hp
      split at hp
      · split at hp
        · cases hp
        · split at hp
          · cases hp
          · split at hp
            · cases hp
            · simp only [Except.ok.injEq, Prod.mk.injEq] at hp
              rw [← hp.1] at hn
              simp only [Option.some.injEq] at hn
              omega
      · simp only [Except.ok.injEq, Prod.mk.injEq] at hp
        rw [← hp.1] at hn
        exact hs n hn
    clear hp hs
    simp only
    cases hsz : s'.size with
    | none => exact ⟨rfl, fun n hn => hs' n hn⟩
    | some size =>
      have hle := hs' size hsz
      cases hd : s'.dec with
      | none => exact ⟨rfl, fun n hn => hs' n hn⟩
      | some q =>
        obtain ⟨nonce, pos⟩ := q
        have h1 : setLen mem size = some (mem.take size) := by unfold setLen; rw [if_pos (by omega)]
        have h2 : (mem.take size).length = size := by simp; omega
        simp only [h1, h2, Option.bind_eq_bind, Option.bind_some, filled_eq]
        split
        · exact ⟨rfl, fun n hn => hs' n hn⟩
        · have fin : ∀ n, some size = some n → n ≤ 1425 := fun n hn => by cases hn; exact hle
          cases hr : streamDecrypt A nonce pos (List.drop from' data) (size - from') with
          | mk pos' r =>
            cases r with
            | error e => exact ⟨rfl, fun n hn => fin n (by simpa using hn)⟩
            | ok p =>
              simp only
              cases io.taken p with
              | none => exact ⟨rfl, fun n hn => fin n (by simpa using hn)⟩
              | some w => exact ⟨rfl, fun n hn => fin n (by simpa using hn)⟩

/-- Calls of `write` without `alloc`, each with the memory as it is then. -/
def StreamOut.writesIn (A : StreamAead) (s : StreamOut) : List (Bytes × Bytes × WriteIo) → Option (StreamOut × List (Except StreamErr Nat))
  | [] => some (s, [])
  | x :: xs => do
    let (s', r) ← s.writeIn x.1 A x.2.1 x.2.2
    let (s'', rs) ← s'.writesIn A xs
    some (s'', r :: rs)

/-- **C91**: a whole sealed file written in fixed memory, from a new writer, with any contents of the block buffer. -/
theorem c91_stream_file (A : StreamAead) (xs : List (Bytes × Bytes × WriteIo)) (hm : ∀ x ∈ xs, x.1.length = 1425) :
    StreamOut.new.writesIn A xs = some (StreamOut.new.writes A (xs.map (·.2))) := by
  have key : ∀ s : StreamOut, (∀ n, s.size = some n → n ≤ 1425) → s.writesIn A xs = some (s.writes A (xs.map (·.2))) := by
    induction xs with
    | nil => exact fun s _ => rfl
    | cons x xs ih =>
      intro s hs
      obtain ⟨h1, h2⟩ := c91_stream_write x.1 (hm x (List.mem_cons_self ..)) A s hs x.2.1 x.2.2
      simp only [StreamOut.writesIn, StreamOut.writes, List.map_cons, h1, Option.bind_eq_bind, Option.bind_some]
      rw [ih (fun y hy => hm y (List.mem_cons_of_mem _ hy)) _ h2]
      rfl
  exact key _ (fun n hn => by cases hn)

/-- Non-vacuity: a header and an empty last block, in memory full of old bytes. -/
example (A : StreamAead) : ∃ s, StreamOut.new.writesIn A [(List.replicate 1425 9, be16 38 ++ List.replicate 19 1 ++ A.enc (List.replicate 19 1) 0 true [],
    WriteIo.all)] = some (s, [.ok 37]) := by
  rw [c91_stream_file A _ (fun x hx => by rw [List.mem_singleton.mp hx]; exact List.length_replicate)]
  have hl := A.enc_length (List.replicate 19 1) 0 true []
  have hd := A.dec_enc (List.replicate 19 1) 0 true []
  generalize A.enc (List.replicate 19 1) 0 true [] = c at hl hd
  have h37 : (be16 38 ++ List.replicate 19 1 ++ c).length = 37 := by
    simp only [List.length_append, List.length_replicate, hl]; rfl
  have hp : StreamOut.new.parse (be16 38 ++ List.replicate 19 1 ++ c) = .ok ({ StreamOut.new with dec := some (List.replicate 19 1, some 0), size := some 38 }, 21) := by
    unfold StreamOut.parse
    have h1 : readU16 (be16 38 ++ List.replicate 19 1 ++ c) = some 38 := rfl
    simp only [StreamOut.new, ↓reduceIte, h1]
    rw [if_neg (by decide), if_neg (by omega)]
    rfl
  simp only [List.map_cons, List.map_nil, StreamOut.writes]
  suffices h : (StreamOut.new.write A (be16 38 ++ List.replicate 19 1 ++ c) WriteIo.all).2 = .ok 37 by
    exact ⟨_, by rw [h]⟩
  unfold StreamOut.write
  rw [hp]
  have h2 : (be16 38 ++ List.replicate 19 1 ++ c).drop 21 = c := rfl
  simp only [h2, streamDecrypt, hl]
  rw [if_neg (by decide)]
  simp only [hd]
  rfl

end Tftp

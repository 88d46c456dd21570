import Verif.Sizes
import Verif.PacketProps
/-
C29: no datagram can crash the peer.

The decoder of Packet.lean again, with every slicing operation of the code which panics when it is out of range made explicit
(`slice`), and the error replies which quote the requested file name (`ensure_size`).
-/
namespace Tftp

/-- `&b[i..j]`: panics if out of range. -/
def slice (b : Bytes) (i j : Nat) : Out Bytes :=
  if i ≤ j ∧ j ≤ b.length then .ok ((b.drop i).take (j - i)) else .panic

/-- `b.get(i..)`. -/
def getFrom (b : Bytes) (i : Nat) : Option Bytes := if i ≤ b.length then some (b.drop i) else none

/-- `b.iter().position(|&c| c == b'\0')`. -/
def position : Bytes → Option Nat
  | [] => none
  | c :: r => if c = 0 then some 0 else (position r).map (· + 1)

/-- Sequencing of functions which may panic. -/
def Out.bind {α β} (x : Out α) (f : α → Out β) : Out β :=
  match x with
  | .ok a => f a
  | .err => .err
  | .panic => .panic

/-- src/packet.rs:281-304 the loop of `OptionalAck::from_bytes`, with its slicing operations. `PacketError`s are
`Except` values, `Out.panic` is a panic. -/
def extLoopP : Nat → Bytes → Exts → Out (Except PacketError Exts)
  | 0, _, _ => .ok (.error .invalid)
  | fuel + 1, rest, e =>
    if e.size < 8 then
      match position rest with
      | none => .ok (.error .invalid)
      | some n => (slice rest 0 n).bind fun name =>
        if utf8Valid name then
          match getFrom rest (n + 1) with
          | none => .ok (.error .invalid)
          | some next =>
            match position next with
            | none => .ok (.error .invalid)
            | some m => (slice next 0 m).bind fun value =>
              if utf8Valid value then
                let e := e.insertNamed name value
                match getFrom next (m + 1) with
                | some r => if r.isEmpty then .ok (.ok e) else extLoopP fuel r e
                | none => .ok (.ok e)
              else .ok (.error .invalidString)
        else .ok (.error .invalidString)
    else .ok (.ok e)

/-- src/packet.rs:347-375 `RequestPacket::from_bytes`. -/
def requestP (b : Bytes) : Out (Except PacketError Request) :=
  match position b with
  | none => .ok (.error .invalid)
  | some n =>
    match getFrom b (n + 1) with
    | none => .ok (.error .invalid)
    | some rest => (slice b 0 n).bind fun name =>
      if utf8Valid name then
        match position rest with
        | none => .ok (.error .invalid)
        | some m => (slice rest 0 m).bind fun mode =>
          if utf8Valid mode then
            if mode = ascii "octet" then
              match getFrom rest (m + 1) with
              | some r =>
                if r.isEmpty then .ok (.ok ⟨name, Exts.empty⟩)
                else (extLoopP (r.length + 1) r Exts.empty).bind fun x => .ok (x.map fun e => ⟨name, e⟩)
              | none => .ok (.ok ⟨name, Exts.empty⟩)
            else .ok (.error .invalidMode)
          else .ok (.error .invalidString)
      else .ok (.error .invalidString)

/-- src/packet.rs:513-527 `ErrorPacket::from_bytes`. -/
def errorP (b : Bytes) : Out (Except PacketError Packet) :=
  match readU16 b with
  | none => .ok (.error .invalid)
  | some c =>
    match ErrorCode.ofRepr c.toNat with
    | none => .ok (.error .invalid)
    | some code =>
      match getFrom b 2 with
      | none => .ok (.error .invalid)
      | some msg =>
        match position msg with
        | none => .ok (.error .invalid)
        | some n => (slice msg 0 n).bind fun m =>
          if utf8Valid m then .ok (.ok (.error code m)) else .ok (.error .invalidString)

/-- src/packet.rs:55-68 `Packet::from_bytes`. -/
def fromBytesP (b : Bytes) : Out (Except PacketError Packet) :=
  match readU16 b with
  | none => .ok (.error .invalid)
  | some op =>
    match PacketType.ofRepr op.toNat with
    | none => .ok (.error .invalid)
    | some t =>
      match getFrom b 2 with
      | none => .ok (.error .invalid)
      | some r =>
        match t with
        | .read => (requestP r).bind fun x => .ok (x.map .read)
        | .write => (requestP r).bind fun x => .ok (x.map .write)
        | .data => match readU16 r with
          | none => .ok (.error .invalid)
          | some blk => match getFrom r 2 with
            | none => .ok (.error .invalid)
            | some d => .ok (.ok (.data blk d))
        | .ack => match readU16 r with
          | none => .ok (.error .invalid)
          | some blk => .ok (.ok (.ack blk))
        | .error => errorP r
        | .optionalAck => (extLoopP (r.length + 1) r Exts.empty).bind fun x => .ok (x.map .optionalAck)

theorem position_split (b : Bytes) :
    (position b = none ∧ splitNul b = none) ∨
    ∃ n, position b = some n ∧ n < b.length ∧ splitNul b = some (b.take n, b.drop (n + 1)) := by
  induction b with
  | nil => exact .inl ⟨rfl, rfl⟩
  | cons c r ih =>
    by_cases hc : c = 0
    · right
      refine ⟨0, by simp [position, hc], by simp, by simp [splitNul, hc]⟩
    · rcases ih with ⟨h1, h2⟩ | ⟨n, h1, h2, h3⟩
      · left; simp [position, splitNul, hc, h1, h2]
      · right; exact ⟨n + 1, by simp [position, hc, h1], by simpa using h2, by simp [splitNul, hc, h3]⟩

theorem slice_prefix (b : Bytes) (n : Nat) (h : n ≤ b.length) : slice b 0 n = .ok (b.take n) := by
  unfold slice; rw [if_pos ⟨by omega, h⟩]; simp

theorem getFrom_ok (b : Bytes) (n : Nat) (h : n ≤ b.length) : getFrom b n = some (b.drop n) := by
  unfold getFrom; rw [if_pos h]

theorem extLoopP_ok (fuel : Nat) (b : Bytes) (e : Exts) : extLoopP fuel b e = .ok (extLoop fuel b e) := by
  induction fuel generalizing b e with
  | zero => rfl
  | succ fuel ih =>
    unfold extLoopP extLoop
    split
    · rcases position_split b with ⟨h1, h2⟩ | ⟨n, h1, h2, h3⟩
      · rw [h1, h2]
      · rw [h1, h3]
        simp only [slice_prefix b n (by omega), Out.bind]
        split
        · rw [getFrom_ok b (n + 1) (by omega)]
          simp only
          rcases position_split (b.drop (n + 1)) with ⟨g1, g2⟩ | ⟨m, g1, g2, g3⟩
          · rw [g1, g2]
          · rw [g1, g3]
            simp only [slice_prefix _ m (Nat.le_of_lt g2)]
            split
            · rw [getFrom_ok _ (m + 1) (by omega)]
              simp only
              split
              · rfl
              · exact ih _ _
            · rfl
        · rfl
    · rfl

theorem requestP_ok (b : Bytes) : requestP b = .ok (Request.fromBytes b) := by
  unfold requestP Request.fromBytes Exts.fromBytes
  rcases position_split b with ⟨h1, h2⟩ | ⟨n, h1, h2, h3⟩
  · rw [h1, h2]
  · rw [h1, h3]
    simp only [slice_prefix b n (by omega), getFrom_ok b (n + 1) (by omega), Out.bind]
    split
    · rcases position_split (b.drop (n + 1)) with ⟨g1, g2⟩ | ⟨m, g1, g2, g3⟩
      · rw [g1, g2]
      · rw [g1, g3]
        simp only [slice_prefix _ m (Nat.le_of_lt g2), getFrom_ok _ (m + 1) g2, extLoopP_ok]
        split
        · split
          · split
            · rfl
            · cases extLoop _ _ Exts.empty <;> rfl
          · rfl
        · rfl
    · rfl

theorem errorP_ok (b : Bytes) : errorP b = .ok (errorFromBytes b) := by
  unfold errorP errorFromBytes
  cases hr : readU16 b with
  | none => rfl
  | some c =>
    simp only
    cases ErrorCode.ofRepr c.toNat with
    | none => rfl
    | some code =>
      have hl : 2 ≤ b.length := by
        match b, hr with
        | a :: c :: r, _ => simp
      simp only [getFrom_ok b 2 hl]
      rcases position_split (b.drop 2) with ⟨g1, g2⟩ | ⟨m, g1, g2, g3⟩
      · rw [g1, g2]
      · rw [g1, g3]
        simp only [slice_prefix _ m (Nat.le_of_lt g2), Out.bind]
        split <;> rfl

/-- **C29**, decoding: no datagram of any length or content makes the decoder panic: every slice it takes is in range. -/
theorem c29_decode_never_panics (b : Bytes) : fromBytesP b = .ok (Packet.fromBytes b) := by
  unfold fromBytesP Packet.fromBytes
  cases hr : readU16 b with
  | none => rfl
  | some op =>
    have hl : 2 ≤ b.length := by
      match b, hr with
      | a :: c :: r, _ => simp
    simp only [getFrom_ok b 2 hl]
    cases PacketType.ofRepr op.toNat with
    | none => rfl
    | some t =>
      cases t with
      | read => simp only [requestP_ok, Out.bind]
      | write => simp only [requestP_ok, Out.bind]
      | data =>
        simp only
        cases hr2 : readU16 (b.drop 2) with
        | none => rfl
        | some blk =>
          have hl2 : 2 ≤ (b.drop 2).length := by
            generalize b.drop 2 = c at hr2
            match c, hr2 with
            | a :: c :: r, _ => simp
          simp only [getFrom_ok _ 2 hl2]
      | ack => simp only; cases readU16 (b.drop 2) <;> rfl
      | error => exact errorP_ok _
      | optionalAck => simp only [extLoopP_ok, Out.bind, Exts.fromBytes]

/-! ### Decrypting -/

theorem decrypt_panic_iff (A : Aead) (b : Bytes) (k : Nat) :
    decrypt A b k = .panic ↔ 40 ≤ b.length ∧ b.length < 40 + k := by
  unfold decrypt rsliceToArray
  constructor
  · intro h
    split at h
    · rename_i n t h1 h2
      have g1 : 24 + 0 ≤ b.length := by
        rcases Nat.lt_or_ge b.length (24 + 0) with hc | hc
        · rw [if_neg (by omega)] at h1; cases h1
        · exact hc
      have g2 : 16 + 24 ≤ b.length := by
        rcases Nat.lt_or_ge b.length (16 + 24) with hc | hc
        · rw [if_neg (by omega)] at h2; cases h2
        · exact hc
      dsimp only at h
      split at h
      · rename_i hc
        simp only [List.length_take] at hc
        omega
      · split at h <;> cases h
    · cases h
  · rintro ⟨h1, h2⟩
    rw [if_pos (by omega), if_pos (by omega)]
    simp only
    rw [if_pos (by simp only [List.length_take]; omega)]

/-- **C29** (partial), decrypting: at the protocol and full level, for the first packet and without encryption, no
datagram makes the receiver panic. Missing: the data level, see `c29_data_level_panic`. -/
theorem c29_open_never_panics_partial (A : Aead) (b : Bytes) :
    (∀ l, l ≠ .data → unprotect A l b ≠ .panic) ∧
    (∀ ct nonce pub, parseInitial b = some (ct, nonce, pub) → openInitial A ct nonce ≠ .panic) := by
  have key : ∀ b, openPacket A b ≠ .panic := by
    intro b h
    unfold openPacket at h
    split at h
    · split at h <;> cases h
    · cases h
    · rename_i hd
      have := (decrypt_panic_iff A b 0).mp hd
      omega
  constructor
  · intro l hl
    cases l with
    | data => exact absurd rfl hl
    | protocol => exact key b
    | full => exact key b
    | optionalData => exact nofun
    | optionalProtocol => exact nofun
    | none => exact nofun
  · intro ct nonce pub _
    exact key _

/-- Finding: at the data level exactly the datagrams of 40 to 43 bytes which start with the data opcode make the receiver
panic, whatever the rest of them is. They need no knowledge of the key. -/
theorem c29_data_level_panic (A : Aead) (b : Bytes) :
    unprotect A .data b = .panic ↔ packetType b = some .data ∧ 40 ≤ b.length ∧ b.length ≤ 43 := by
  unfold unprotect openData
  simp only
  split
  · rename_i h
    rw [decrypt_panic_iff]
    simp only [h, true_and]
    omega
  · rename_i h
    simp [h]

/-- A concrete one. -/
example (A : Aead) : unprotect A .data ([0, 3, 0, 1] ++ List.replicate 38 0) = .panic :=
  (c29_data_level_panic A _).mpr ⟨by decide, by decide, by decide⟩

/-! ### Error replies -/

/-- `str::is_char_boundary(i)`. -/
def charBoundary (s : Bytes) (i : Nat) : Bool :=
  i == 0 || i == s.length || match s[i]? with
    | some c => !(128 ≤ c.toNat && c.toNat < 192)
    | none => false

/-- src/lib.rs:55-61 `ensure_size`: `split_at` panics if the position is inside a character. -/
def ensureSize (s : Bytes) (max : Nat) : Out Bytes :=
  if s.length > max then (if charBoundary s max then .ok (s.take max) else .panic) else .ok s

/-- **C29** (partial), error replies: quoting a requested name of at most 100 bytes or an ASCII name never panics. Missing:
other names, see `c29_long_name_panic`. -/
theorem c29_error_reply_partial (s : Bytes) (h : s.length ≤ 100 ∨ ∀ c ∈ s, c.toNat < 128) : ensureSize s 100 ≠ .panic := by
  unfold ensureSize
  split
  · rename_i hl
    rcases h with h | h
    · omega
    · rw [if_pos]
      · exact nofun
      · unfold charBoundary
        rw [List.getElem?_eq_getElem hl]
        have := h _ (List.getElem_mem hl)
        simp
        omega
  · exact nofun

/-- Finding: a request for a valid UTF-8 name with a two byte character at bytes 100 and 101 (which can't be opened) makes the
server panic: here 99 letters, `ä`, and any rest. -/
theorem c29_long_name_panic (rest : Bytes) :
    let name := List.replicate 99 97 ++ [195, 164] ++ rest
    utf8Valid (List.replicate 99 97 ++ [195, 164]) = true ∧ ensureSize name 100 = .panic := by
  refine ⟨by decide, ?_⟩
  unfold ensureSize
  rw [if_pos (by simp), if_neg]
  unfold charBoundary
  rw [List.append_assoc, List.getElem?_append_right (by simp)]
  simp

end Tftp

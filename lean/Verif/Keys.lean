import Verif.Base64
/-
Text forms of keys and signatures (src/encryption.rs:312-400, 446-463) and C33.
-/
namespace Tftp

/-- `ENGINE.decode_slice(data, &mut [0; MAX_EXTENSION_VALUE_SIZE])` (src/encryption.rs:374-377, 387-390, 450-453):
base64 0.21.7 first demands that the conservative estimate of the decoded length fits the 88 byte output,
then decodes; the rest of the output stays zero. -/
def keyBuffer (t : Bytes) : Option Bytes :=
  if (t.length + 3) / 4 * 3 ≤ 88 then
    (b64decode t).map fun x => x ++ List.replicate (88 - x.length) 0
  else none

/-- src/encryption.rs:446-463 `decode::<Output, CAP>`; used with `CAP = 32` by `decode_private_key`, `decode_signing_key`,
`decode_public_key` (352-370) and with `CAP = 24` by `decode_nonce`. -/
def decodeKey (cap : Nat) (t : Bytes) : Option Bytes := do
  let b ← keyBuffer t
  if b[cap]? ≠ some 0 then none else pure (b.take cap)

/-- src/encryption.rs:377-387 `decode_verifying_key`; `point` says which 32 byte strings `VerifyingKey::from_bytes`
accepts (a point of the curve). -/
def decodeVerifyingKey (point : Bytes → Bool) (t : Bytes) : Option Bytes := do
  let b ← keyBuffer t
  if point (b.take 32) then pure (b.take 32) else none

/-- src/encryption.rs:386-396 `decode_signature`. -/
def decodeSignature (t : Bytes) : Option Bytes := do
  let b ← keyBuffer t
  pure (b.take 64)

/-- src/encryption.rs:312-350 `encode_public_key`, `encode_verifying_key`, `encode_private_key`, `encode_signing_key`,
`encode_signature`, `encode_nonce`: the output array has the exact size, so encoding never fails
(`b64encode_length`). -/
def encodeKey (k : Bytes) : Bytes := b64encode k

theorem keyBuffer_encode (x : Bytes) (h : x.length ≤ 87) :
    keyBuffer (b64encode x) = some (x ++ List.replicate (88 - x.length) 0) := by
  unfold keyBuffer
  rw [b64encode_length, if_pos (by omega), b64_decode_encode]
  rfl

theorem keyBuffer_some (t b : Bytes) :
    keyBuffer t = some b ↔ ∃ x, t = b64encode x ∧ x.length ≤ 87 ∧ b = x ++ List.replicate (88 - x.length) 0 := by
  constructor
  · intro h
    unfold keyBuffer at h
    split at h
    · rename_i hl
      simp only [Option.map_eq_some_iff] at h
      obtain ⟨x, hx, rfl⟩ := h
      have := b64_encode_decode t x hx
      refine ⟨x, this.symm, ?_, rfl⟩
      rw [← this, b64encode_length] at hl
      omega
    · cases h
  · rintro ⟨x, rfl, hx, rfl⟩
    exact keyBuffer_encode x hx

/-- **C33**, first half: a printed key (32 bytes), verifying key or signature (64 bytes) is read back unchanged. -/
theorem c33_round_trip :
    (∀ k : Bytes, k.length = 32 → decodeKey 32 (encodeKey k) = some k) ∧
    (∀ k : Bytes, k.length = 24 → decodeKey 24 (encodeKey k) = some k) ∧
    (∀ point (k : Bytes), k.length = 32 → point k = true → decodeVerifyingKey point (encodeKey k) = some k) ∧
    (∀ s : Bytes, s.length = 64 → decodeSignature (encodeKey s) = some s) := by
  refine ⟨fun k hk => ?_, fun k hk => ?_, fun point k hk hp => ?_, fun s hs => ?_⟩
  · unfold decodeKey encodeKey
    rw [keyBuffer_encode k (by omega), hk]
    simp [hk]
  · unfold decodeKey encodeKey
    rw [keyBuffer_encode k (by omega), hk]
    simp [hk]
  · unfold decodeVerifyingKey encodeKey
    rw [keyBuffer_encode k (by omega), hk]
    simp [hk, hp]
  · unfold decodeSignature encodeKey
    rw [keyBuffer_encode s (by omega), hs]
    simp [hs]

/-- **C33**: different keys have different texts. -/
theorem c33_texts_distinct (k l : Bytes) (h : encodeKey k = encodeKey l) : k = l := by
  have := b64_decode_encode k
  unfold encodeKey at h
  rw [h, b64_decode_encode] at this
  exact (Option.some.inj this).symm

/-- The first `n` bytes of `x`, with missing ones replaced by zero. -/
def Spec.zeroExtend (n : Nat) (x : Bytes) : Bytes := (x ++ List.replicate n 0).take n

theorem take_replicate_pad (x : Bytes) (n m : Nat) (h : n ≤ x.length + m) :
    (x ++ List.replicate m (0 : UInt8)).take n = Spec.zeroExtend n x := by
  unfold Spec.zeroExtend
  apply List.ext_getElem?
  intro i
  simp only [List.getElem?_take, List.getElem?_append, List.getElem?_replicate]
  split
  · split
    · rfl
    · rw [if_pos (by omega), if_pos (by omega)]
  · rfl

/-- **C33**, second half (partial): exactly which texts are accepted as a key, and as which key.  Rejecting every text
which is not the encoding of exactly 32 bytes — the claim — is false (`c33_short_text_accepted`,
`c33_long_text_accepted`): any canonical base64 text of at most 87 bytes whose byte number 33 (if there is one) is
zero is accepted and truncated or extended with zeros. -/
theorem c33_accepted_texts_partial (t k : Bytes) :
    decodeKey 32 t = some k ↔
      ∃ x, t = b64encode x ∧ x.length ≤ 87 ∧ (∀ b, x[32]? = some b → b = 0) ∧ k = Spec.zeroExtend 32 x := by
  unfold decodeKey
  simp only [Option.bind_eq_bind, Option.bind_eq_some_iff, keyBuffer_some, Option.pure_def]
  constructor
  · rintro ⟨b, ⟨x, rfl, hx, rfl⟩, h⟩
    split at h
    · cases h
    · rename_i hz
      simp only [ne_eq, Classical.not_not] at hz
      simp only [Option.some.injEq] at h
      refine ⟨x, rfl, hx, ?_, ?_⟩
      · intro b hb
        rw [List.getElem?_append_left (by
          rcases Nat.lt_or_ge 32 x.length with h | h
          · exact h
          · rw [List.getElem?_eq_none h] at hb; cases hb)] at hz
        rw [hz] at hb
        exact (Option.some.inj hb).symm
      · rw [← h]; exact take_replicate_pad x 32 _ (by omega)
  · rintro ⟨x, rfl, hx, hz, rfl⟩
    refine ⟨_, ⟨x, rfl, hx, rfl⟩, ?_⟩
    rw [take_replicate_pad x 32 _ (by omega)]
    rw [if_neg]
    simp only [ne_eq, Classical.not_not]
    rcases Nat.lt_or_ge 32 x.length with h | h
    · rw [List.getElem?_append_left h, List.getElem?_eq_getElem h]
      rw [hz _ (List.getElem?_eq_getElem h)]
    · rw [List.getElem?_append_right h, List.getElem?_replicate, if_pos (by omega)]

/-- A text of the right length (44 characters, one of them padding) is accepted only if it is the encoding of the
returned key. -/
theorem c33_full_length_text_exact (t k : Bytes) (h : decodeKey 32 t = some k) (hl : t.length = 44)
    (hp : t.count 61 = 1) : t = encodeKey k ∧ k.length = 32 := by
  obtain ⟨x, rfl, hx, hz, rfl⟩ := (c33_accepted_texts_partial t k).mp h
  rw [b64encode_length] at hl
  have cnt : ∀ x : Bytes, (b64encode x).count 61 = (3 - x.length % 3) % 3 := by
    intro x
    induction x using b64encode.induct with
    | case1 => rfl
    | case2 a =>
      have ha := a.toNat_lt
      have h1 := b64sym_ne_pad (a.toNat / 4) (by omega)
      have h2 := b64sym_ne_pad (a.toNat % 4 * 16) (by omega)
      simp [b64encode, h1, h2]
    | case3 a b =>
      have ha := a.toNat_lt
      have hb := b.toNat_lt
      have h1 := b64sym_ne_pad (a.toNat / 4) (by omega)
      have h2 := b64sym_ne_pad (a.toNat % 4 * 16 + b.toNat / 16) (by omega)
      have h3 := b64sym_ne_pad (b.toNat % 16 * 4) (by omega)
      simp [b64encode, h1, h2, h3]
    | case4 a b c r ih =>
      have ha := a.toNat_lt
      have hb := b.toNat_lt
      have hc := c.toNat_lt
      have h1 := b64sym_ne_pad (a.toNat / 4) (by omega)
      have h2 := b64sym_ne_pad (a.toNat % 4 * 16 + b.toNat / 16) (by omega)
      have h3 := b64sym_ne_pad (b.toNat % 16 * 4 + c.toNat / 64) (by omega)
      have h4 := b64sym_ne_pad (c.toNat % 64) (by omega)
      simp only [b64encode, List.count_cons, ih, h1, h2, h3, h4, beq_iff_eq, if_false, List.length_cons]
      omega
  rw [cnt] at hp
  have h32 : x.length = 32 := by omega
  have : Spec.zeroExtend 32 x = x := by
    unfold Spec.zeroExtend
    rw [← h32]
    simp
  rw [this]
  exact ⟨rfl, h32⟩

/-- Findings: a text which encodes 10 bytes is accepted as a key (the repository's own tests do that), also the empty
text, -/
theorem c33_short_text_accepted :
    decodeKey 32 (ascii "qTuwoxbFqBB96g==") =
      some ([169, 59, 176, 163, 22, 197, 168, 16, 125, 234] ++ List.replicate 22 0) ∧
    decodeKey 32 [] = some (List.replicate 32 0) := by
  decide

/-- and the encoding of more than 32 bytes, if byte 33 happens to be zero. For verifying keys and signatures there is not even
that check. -/
theorem c33_long_text_accepted (k r : Bytes) (hk : k.length = 32) (hr : r.length ≤ 54) :
    decodeKey 32 (b64encode (k ++ 0 :: r)) = some k ∧
    (∀ point b, point k = true → decodeVerifyingKey point (b64encode (k ++ b :: r)) = some k) := by
  constructor
  · refine (c33_accepted_texts_partial _ _).mpr ⟨_, rfl, by simp; omega, ?_, ?_⟩
    · intro b hb
      rw [List.getElem?_append_right (by omega), hk] at hb
      simpa using hb.symm
    · unfold Spec.zeroExtend
      rw [List.append_assoc, List.take_append_of_le_length (by omega), ← hk]
      simp
  · intro point b hp
    unfold decodeVerifyingKey
    rw [keyBuffer_encode _ (by simp; omega)]
    simp [hk, hp]

/-- std-binary/src/encryption_io.rs:57-80 `read_private_value_or_file`: the argument is tried as a key first; only if that
fails it is taken as a file name.  `file` is the first line of the file of that name (`none`: can't be read),
without trailing white space. -/
def readPrivate (file : Option Bytes) (arg : Bytes) : Option Bytes :=
  match decodeKey 32 arg with
  | some k => some k
  | none => file.bind (decodeKey 32)

/-- **C46** (partial): a key written in a file is used whenever the file name is not itself accepted as a key; in
particular every name with a `.`, `-` or `_` in it. -/
theorem c46_private_key_from_file_partial (k name : Bytes) (hk : k.length = 32)
    (hn : ∃ c ∈ name, b64val c = none ∧ c ≠ 61) : readPrivate (some (encodeKey k)) name = some k := by
  unfold readPrivate
  have : decodeKey 32 name = none := by
    cases h : decodeKey 32 name with
    | none => rfl
    | some k' =>
      exfalso
      obtain ⟨x, rfl, -⟩ := (c33_accepted_texts_partial _ _).mp h
      obtain ⟨c, hc, hv, hp⟩ := hn
      have key : ∀ x : Bytes, ∀ c ∈ b64encode x, c = 61 ∨ (b64val c).isSome := by
        intro x
        have hs : ∀ n < 64, (b64val (b64sym n)).isSome = true := by
          intro n hn; rw [b64val_sym n hn]; rfl
        induction x using b64encode.induct with
        | case1 => simp [b64encode]
        | case2 a =>
          have ha := a.toNat_lt
          simp only [b64encode, List.mem_cons, List.not_mem_nil, or_false, forall_eq_or_imp, forall_eq, true_or, and_true]
          exact ⟨.inr (hs _ (by omega)), .inr (hs _ (by omega))⟩
        | case3 a b =>
          have ha := a.toNat_lt
          have hb := b.toNat_lt
          simp only [b64encode, List.mem_cons, List.not_mem_nil, or_false, forall_eq_or_imp, forall_eq, true_or, and_true]
          exact ⟨.inr (hs _ (by omega)), .inr (hs _ (by omega)), .inr (hs _ (by omega))⟩
        | case4 a b c r ih =>
          have ha := a.toNat_lt
          have hb := b.toNat_lt
          have hc := c.toNat_lt
          simp only [b64encode, List.mem_cons, forall_eq_or_imp]
          exact ⟨.inr (hs _ (by omega)), .inr (hs _ (by omega)), .inr (hs _ (by omega)), .inr (hs _ (by omega)), ih⟩
      rcases key x c hc with h1 | h1
      · exact hp h1
      · rw [hv] at h1; cases h1
  rw [this]
  exact c33_round_trip.1 k hk

/-- Finding: with a file called `keys/server1key0` (16 characters of the base64 alphabet) the *name* is used as the
private key, whatever the file contains. -/
theorem c46_file_name_used_as_key (file : Option Bytes) :
    ∃ k, readPrivate file (ascii "keys/server1key0") = some k ∧ k.drop 12 = List.replicate 20 0 := by
  refine ⟨Spec.zeroExtend 32 [145, 236, 172, 254, 199, 171, 189, 234, 245, 145, 236, 180], ?_, by decide⟩
  have : decodeKey 32 (ascii "keys/server1key0") =
      some (Spec.zeroExtend 32 [145, 236, 172, 254, 199, 171, 189, 234, 245, 145, 236, 180]) := by decide
  unfold readPrivate
  rw [this]

-- the hypotheses are satisfiable
example : decodeKey 32 (encodeKey (List.replicate 32 7)) = some (List.replicate 32 7) :=
  c33_round_trip.1 _ (by simp)
example : ∃ c ∈ ascii "key.txt", b64val c = none ∧ c ≠ 61 := ⟨46, by decide, by decide, by decide⟩

end Tftp

import Verif.Crypto
import Verif.TransferModel
/-
C26 (padding), C27 (packet encryption), C28 (datagram sizes), C29 (no panics).
-/
namespace Tftp

/-! ### Padding -/

theorem trailing_le (x : UInt8) (b : Bytes) : trailing x b ≤ b.length := by
  induction b with
  | nil => simp [trailing]
  | cons c r ih => unfold trailing; split <;> simp; omega

theorem trailing_replicate (x : UInt8) (n : Nat) : trailing x (List.replicate n x) = n := by
  cases n with
  | zero => rfl
  | succ n =>
    rw [List.replicate_succ, trailing, if_pos (by simp)]
    simp

theorem trailing_append (x : UInt8) (b : Bytes) (n : Nat) (h : ∀ c, b.getLast? = some c → c ≠ x) :
    trailing x (b ++ List.replicate n x) = n := by
  induction b with
  | nil => simpa using trailing_replicate x n
  | cons c r ih =>
    rw [List.cons_append, trailing, if_neg, ih]
    · intro c' hc'
      apply h c'
      cases r with
      | nil => simp at hc'
      | cons d r => simpa using hc'
    · intro hall
      simp only [List.all_cons, List.all_append, Bool.and_eq_true, decide_eq_true_eq] at hall
      obtain ⟨l, hl⟩ : ∃ l, (c :: r).getLast? = some l := ⟨_, List.getLast?_eq_some_getLast (List.cons_ne_nil c r)⟩
      have hm := List.mem_of_getLast? hl
      apply h l hl
      rcases List.mem_cons.mp hm with rfl | hm
      · exact hall.1
      · have := List.all_eq_true.mp hall.2.1 l hm
        simpa using this

/-- The padding of a packet: a non-empty run of one of the two padding bytes, different from the last byte of
the packet. -/
def Spec.Padded (b p : Bytes) : Prop :=
  ∃ (x : UInt8) (n : Nat), (x = 0 ∨ x = 255) ∧ p = b ++ List.replicate (n + 1) x ∧ ∀ c, b.getLast? = some c → c ≠ x

theorem removePadding_padded {b p : Bytes} (h : Spec.Padded b p) : removePadding p = some b := by
  obtain ⟨x, n, hx, rfl, hl⟩ := h
  have hlast : (b ++ List.replicate (n + 1) x).getLast? = some x := by
    rw [List.getLast?_append]; simp [List.getLast?_replicate]
  have ht := trailing_append x b (n + 1) hl
  unfold removePadding
  rw [hlast]
  rcases hx with rfl | rfl
  · simp only [ht]
    simp
  · simp only [ht]
    simp

theorem trailing_split (x : UInt8) (p : Bytes) :
    p = p.take (p.length - trailing x p) ++ List.replicate (trailing x p) x ∧
      ∀ c, (p.take (p.length - trailing x p)).getLast? = some c → c ≠ x := by
  induction p with
  | nil => simp [trailing]
  | cons c r ih =>
    by_cases h : (c :: r).all (· = x)
    · have he : c :: r = List.replicate (r.length + 1) x := by
        rw [List.eq_replicate_iff]
        refine ⟨by simp, fun d hd => ?_⟩
        simpa using List.all_eq_true.mp h d hd
      have ht : trailing x (c :: r) = r.length + 1 := by
        unfold trailing; rw [if_pos h]
      rw [ht]
      simp only [List.length_cons, Nat.sub_self, List.take_zero, List.nil_append, List.getLast?_nil]
      exact ⟨he, by simp⟩
    · have ht : trailing x (c :: r) = trailing x r := by
        rw [trailing, if_neg h]
      have hle := trailing_le x r
      rw [ht]
      have : (c :: r).length - trailing x r = (r.length - trailing x r) + 1 := by simp; omega
      rw [this, List.take_succ_cons]
      refine ⟨?_, ?_⟩
      · rw [List.cons_append, ← ih.1]
      · intro d hd
        cases hr : r.take (r.length - trailing x r) with
        | nil =>
          rw [hr] at hd
          simp at hd
          subst hd
          intro hc
          apply h
          have : r = List.replicate (trailing x r) x := by
            have := ih.1; rw [hr] at this; simpa using this
          rw [this, List.all_cons]
          simp [hc]
        | cons e s =>
          rw [hr] at hd
          apply ih.2 d
          rw [hr]
          simpa using hd

/-- **C26**: exactly the padded packets are accepted, and they are restored. -/
theorem c26_remove_iff (p b : Bytes) : removePadding p = some b ↔ Spec.Padded b p := by
  constructor
  · intro h
    unfold removePadding at h
    split at h
    · cases h
    · rename_i last hlast
      have main : ∀ x : UInt8, (x = 0 ∨ x = 255) → last = x → p.take (p.length - trailing x p) = b →
          Spec.Padded b p := by
        rintro x hx rfl hb
        have hs := trailing_split last p
        rw [hb] at hs
        have hpos : trailing last p ≠ 0 := by
          intro h0
          rw [h0] at hs
          simp at hs
          apply hs.2 last
          · rw [← hs.1]; exact hlast
          · rfl
        obtain ⟨n, hn⟩ := Nat.exists_eq_succ_of_ne_zero hpos
        refine ⟨last, n, hx, ?_, hs.2⟩
        rw [← Nat.succ_eq_add_one, ← hn]
        exact hs.1
      split at h
      · exact main 255 (.inr rfl) ‹_› (Option.some.inj h)
      · split at h
        · exact main 0 (.inl rfl) ‹_› (Option.some.inj h)
        · cases h
  · exact removePadding_padded

/-- **C26**: any non-empty packet not longer than `n` is padded, to exactly `n + 1` bytes whatever it contains, and removing
the padding restores it; nothing else is padded. -/
theorem c26_padding_round_trip (b : Bytes) (n : Nat) :
    (b ≠ [] ∧ b.length ≤ n → ∃ p, applyPadding b n = some p ∧ p.length = n + 1 ∧ removePadding p = some b) ∧
    (b = [] ∨ n < b.length → applyPadding b n = none) := by
  constructor
  · rintro ⟨hne, hn⟩
    obtain ⟨l, hl⟩ : ∃ l, b.getLast? = some l := ⟨_, List.getLast?_eq_some_getLast hne⟩
    refine ⟨b ++ List.replicate (n - b.length + 1) (if l.toNat % 2 = 1 then 0 else 255), ?_, ?_, ?_⟩
    · unfold applyPadding
      rw [hl]
      simp only
      rw [if_neg (by omega)]
    · simp; omega
    · apply removePadding_padded
      refine ⟨_, _, ?_, rfl, ?_⟩
      · split <;> simp
      · intro c hc
        rw [hl] at hc
        cases hc
        split
        · rintro rfl; simp_all
        · rintro rfl; simp_all
  · intro h
    unfold applyPadding
    rcases h with rfl | h
    · rfl
    · split
      · rfl
      · rw [if_pos h]

example : applyPadding [0, 4, 0, 1] 6 = some [0, 4, 0, 1, 0, 0, 0] := by decide
example : removePadding [0, 4, 0, 1, 0, 0, 0] = some [0, 4, 0, 1] := by decide

/-! ### Encryption -/

theorem encrypt_ok (A : Aead) (nonce b : Bytes) (k : Nat) (h : k ≤ b.length) :
    encrypt A nonce b k = .ok (b.take k ++ (A.enc nonce (b.drop k)).1 ++ (A.enc nonce (b.drop k)).2 ++ nonce) := by
  unfold encrypt
  rw [if_neg (by omega)]

theorem rslice_append (a m z : Bytes) (n o : Nat) (hm : m.length = n) (hz : z.length = o) :
    rsliceToArray n (a ++ m ++ z) o = some m := by
  unfold rsliceToArray
  rw [if_pos (by simp; omega)]
  congr 1
  have : (a ++ m ++ z).length - n - o = a.length := by simp; omega
  rw [this, List.append_assoc, List.drop_left, ← hm, List.take_left]

theorem decrypt_layout (A : Aead) (head ct tag nonce : Bytes) (ht : tag.length = 16) (hn : nonce.length = 24) :
    decrypt A (head ++ ct ++ tag ++ nonce) head.length =
      match A.dec nonce ct tag with
      | some p => .ok (head ++ p)
      | none => .err := by
  unfold decrypt
  have h1 : rsliceToArray 24 (head ++ ct ++ tag ++ nonce) 0 = some nonce := by
    have := rslice_append (head ++ ct ++ tag) nonce [] 24 0 hn rfl
    simpa using this
  have h2 : rsliceToArray 16 (head ++ ct ++ tag ++ nonce) 24 = some tag := rslice_append (head ++ ct) tag nonce 16 24 ht hn
  rw [h1, h2]
  have h3 : (head ++ ct ++ tag ++ nonce).take ((head ++ ct ++ tag ++ nonce).length - 24 - 16) = head ++ ct := by
    have : (head ++ ct ++ tag ++ nonce).length - 24 - 16 = (head ++ ct).length := by simp; omega
    rw [this, List.append_assoc (head ++ ct), List.take_left]
  simp only [h3]
  rw [if_neg (by simp)]
  rw [List.drop_left, List.take_left]
  rfl

/-- **C27**, data level: the header stays readable, the payload is encrypted, tag and nonce follow; the receiver restores
the packet. -/
theorem c27_data (A : Aead) (nonce head payload : Bytes) (hn : nonce.length = 24) (hh : head.length = 4) :
    ∃ ct tag, sealData A nonce (head ++ payload) = .ok (head ++ ct ++ tag ++ nonce) ∧
      (ct, tag) = A.enc nonce payload ∧ ct.length = payload.length ∧ tag.length = 16 ∧
      openData A (head ++ ct ++ tag ++ nonce) = .ok (head ++ payload) := by
  refine ⟨(A.enc nonce payload).1, (A.enc nonce payload).2, ?_, rfl, A.enc_length _ _, A.tag_length _ _, ?_⟩
  · unfold sealData
    rw [encrypt_ok _ _ _ _ (by simp; omega)]
    rw [← hh, List.drop_left, List.take_left]
  · unfold openData
    rw [← hh, decrypt_layout A head _ _ nonce (A.tag_length _ _) hn, A.dec_enc]

/-- **C27**, protocol and full level: ciphertext of the padded packet, tag, nonce; always `size + 41` bytes; the receiver
restores the packet. -/
theorem c27_packet (A : Aead) (nonce b : Bytes) (size : Nat) (hn : nonce.length = 24) (hb : b ≠ []) (hs : b.length ≤ size) :
    ∃ padded ct tag, sealPacket A nonce b size = .ok (ct ++ tag ++ nonce) ∧ Spec.Padded b padded ∧
      (ct, tag) = A.enc nonce padded ∧ ct.length = size + 1 ∧ tag.length = 16 ∧
      openPacket A (ct ++ tag ++ nonce) = .ok b := by
  obtain ⟨p, hp, hl, hr⟩ := (c26_padding_round_trip b size).1 ⟨hb, hs⟩
  refine ⟨p, (A.enc nonce p).1, (A.enc nonce p).2, ?_, (c26_remove_iff _ _).mp hr, rfl, ?_, A.tag_length _ _, ?_⟩
  · unfold sealPacket
    rw [hp]
    simp only
    rw [encrypt_ok _ _ _ _ (by omega)]
    simp
  · rw [A.enc_length, hl]
  · unfold openPacket
    have := decrypt_layout A [] (A.enc nonce p).1 (A.enc nonce p).2 nonce (A.tag_length _ _) hn
    simp only [List.nil_append, List.length_nil] at this
    rw [this, A.dec_enc]
    simp only [hr]

/-- **C27**, the first packet: ciphertext of the padded request, tag, nonce, public key; always `size` bytes; a receiver with the
same key finds the public key and restores the request. -/
theorem c27_initial (A : Aead) (nonce pub b : Bytes) (size : Nat) (hn : nonce.length = 24) (hpub : pub.length = 32)
    (hb : b ≠ []) (hs : b.length + 73 ≤ size) :
    ∃ padded ct tag, sealInitial A nonce pub b size = .ok (ct ++ tag ++ nonce ++ pub) ∧ Spec.Padded b padded ∧
      (ct, tag) = A.enc nonce padded ∧ ct.length + 72 = size ∧ tag.length = 16 ∧
      parseInitial (ct ++ tag ++ nonce ++ pub) = some (ct ++ tag, nonce, pub) ∧
      openInitial A (ct ++ tag) nonce = .ok b := by
  obtain ⟨p, hp, hl, hr⟩ := (c26_padding_round_trip b (size - 73)).1 ⟨hb, by omega⟩
  have htag := A.tag_length nonce p
  refine ⟨p, (A.enc nonce p).1, (A.enc nonce p).2, ?_, (c26_remove_iff _ _).mp hr, rfl, ?_, htag, ?_, ?_⟩
  · unfold sealInitial
    rw [if_neg (by omega), hp]
    simp only
    rw [encrypt_ok _ _ _ _ (by omega)]
    simp
  · rw [A.enc_length, hl]; omega
  · unfold parseInitial
    have h1 := rslice_append ((A.enc nonce p).1 ++ (A.enc nonce p).2 ++ nonce) pub [] 32 0 hpub rfl
    have h2 := rslice_append ((A.enc nonce p).1 ++ (A.enc nonce p).2) nonce pub 24 32 hn hpub
    have h3 := rslice_append (A.enc nonce p).1 (A.enc nonce p).2 [] 16 0 htag rfl
    rw [List.append_nil] at h1 h3
    rw [h1, h2]
    have h4 : sliceAtEnd ((A.enc nonce p).1 ++ (A.enc nonce p).2 ++ nonce ++ pub) (32 + 24) =
        some ((A.enc nonce p).1 ++ (A.enc nonce p).2) := by
      unfold sliceAtEnd
      rw [if_pos (by simp; omega)]
      congr 1
      have : ((A.enc nonce p).1 ++ (A.enc nonce p).2 ++ nonce ++ pub).length - (32 + 24) =
        ((A.enc nonce p).1 ++ (A.enc nonce p).2).length := by simp; omega
      rw [this, List.append_assoc ((A.enc nonce p).1 ++ (A.enc nonce p).2), List.take_left]
    rw [h4]
    simp only [h3]
  · unfold openInitial openPacket
    have := decrypt_layout A [] (A.enc nonce p).1 (A.enc nonce p).2 nonce htag hn
    simp only [List.nil_append, List.length_nil] at this
    rw [this, A.dec_enc]
    simp only [hr]

/-- Key exchange (X25519): each side combines its secret with the other side's public key. -/
structure Kex where
  Secret : Type
  pub : Secret → Bytes
  cipher : Secret → Bytes → Aead
  pub_length : ∀ s, (pub s).length = 32
  agree : ∀ a b, cipher a (pub b) = cipher b (pub a)

/-- **C27**, end to end: a request which the client encrypts with its ephemeral secret `c` for the server key `s`
(src/encryption.rs:82-91 `create_encryptor_with_auth_keys`) is opened by the server with the public key found in the
datagram (src/server/connection_builder.rs:88-104). -/
theorem c27_request_reaches_server (K : Kex) (c s : K.Secret) (nonce b : Bytes) (size : Nat) (hn : nonce.length = 24)
    (hb : b ≠ []) (hs : b.length + 73 ≤ size) :
    ∃ d ct, sealInitial (K.cipher c (K.pub s)) nonce (K.pub c) b size = .ok d ∧ d.length = size ∧
      parseInitial d = some (ct, nonce, K.pub c) ∧ openInitial (K.cipher s (K.pub c)) ct nonce = .ok b := by
  obtain ⟨p, ct, tag, h1, -, -, h4, h5, h6, h7⟩ :=
    c27_initial (K.cipher c (K.pub s)) nonce (K.pub c) b size hn (K.pub_length c) hb hs
  refine ⟨_, ct ++ tag, h1, ?_, h6, ?_⟩
  · have := K.pub_length c
    simp only [List.length_append]; omega
  · rw [← K.agree]; exact h7

/-! ### The transfer codec -/

theorem packetType_append (h r : Bytes) (hh : 2 ≤ h.length) : packetType (h ++ r) = packetType h := by
  match h, hh with
  | a :: b :: t, _ => rfl

/-- Protection of an established transfer at each level is a `Codec`: the transfer theorems (C11-C15) hold for
encrypted transfers. -/
def Codec.level (A : Aead) (level : Level) (lim : Nat) (nonce : Nat → Bytes) (hn : ∀ i, (nonce i).length = 24) :
    Codec lim where
  enc := fun i b => match protect A level lim (nonce i) b with
    | .ok d => some d
    | _ => none
  dec := fun d => match unprotect A level d with
    | .ok b => some b
    | _ => none
  dec_enc := by
    intro i b e h
    have hpk : ∀ lvl, lvl = Level.protocol ∨ lvl = .full →
        (match sealPacket A (nonce i) b lim with | .ok d => some d | _ => none) = some e →
        (match openPacket A e with | .ok b => some b | _ => none) = some b := by
      intro lvl _ h
      by_cases hc : b ≠ [] ∧ b.length ≤ lim
      · obtain ⟨p, ct, tag, h1, -, -, -, -, h2⟩ := c27_packet A (nonce i) b lim (hn i) hc.1 hc.2
        rw [h1] at h
        cases h
        rw [h2]
      · have : sealPacket A (nonce i) b lim = .err := by
          unfold sealPacket
          rw [(c26_padding_round_trip b lim).2 (by
            rcases Classical.em (b = []) with h0 | h0
            · exact .inl h0
            · exact .inr (Nat.lt_of_not_le fun h1 => hc ⟨h0, h1⟩))]
        rw [this] at h
        cases h
    cases level with
    | protocol => exact hpk _ (.inl rfl) h
    | full => exact hpk _ (.inr rfl) h
    | data =>
      simp only [protect, unprotect] at h ⊢
      by_cases hd : packetType b = some .data
      · rw [if_pos hd] at h
        by_cases hl : 4 ≤ b.length
        · obtain ⟨ct, tag, h1, -, -, -, h2⟩ := c27_data A (nonce i) (b.take 4) (b.drop 4) (hn i) (by simp; omega)
          rw [List.take_append_drop] at h1 h2
          rw [h1] at h
          cases h
          rw [if_pos, h2]
          rw [List.append_assoc, List.append_assoc, packetType_append _ _ (by simp; omega), ← hd]
          rw [← packetType_append (b.take 4) (b.drop 4) (by simp; omega), List.take_append_drop]
        · have : sealData A (nonce i) b = .panic := by
            unfold sealData encrypt
            rw [if_pos (by omega)]
          rw [this] at h
          cases h
      · rw [if_neg hd] at h
        cases h
        rw [if_neg hd]
    | optionalData => cases h; rfl
    | optionalProtocol => cases h; rfl
    | none => cases h; rfl
  enc_some := by
    intro i b h4 hl
    have hpk : (match sealPacket A (nonce i) b lim with | .ok d => some d | _ => none).isSome = true := by
      obtain ⟨p, ct, tag, h1, -⟩ := c27_packet A (nonce i) b lim (hn i) (by rintro rfl; simp at h4) hl
      rw [h1]; rfl
    cases level with
    | protocol => exact hpk
    | full => exact hpk
    | data =>
      simp only [protect]
      by_cases hd : packetType b = some .data
      · obtain ⟨ct, tag, h1, -⟩ := c27_data A (nonce i) (b.take 4) (b.drop 4) (hn i) (by simp; omega)
        rw [List.take_append_drop] at h1
        rw [if_pos hd, h1]; rfl
      · rw [if_neg hd]; rfl
    | optionalData => rfl
    | optionalProtocol => rfl
    | none => rfl

end Tftp

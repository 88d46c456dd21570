import Verif.EndWorld
import Verif.NegotiateAgree
/-
Keys and ciphers (src/encryption.rs:60-148): what the two processes of C52, C53, C74, C75 assume of their key exchange follows from
the code, given the laws of the two libraries x25519_dalek and ed25519_dalek.
-/
namespace Tftp

/-- x25519_dalek and ed25519_dalek. `pub`: `PublicKey::from(&secret)`; `dh`: `diffie_hellman(..).to_bytes()`; `verifying`:
`VerifyingKey::from(&signing_key)`; `scalar`: `StaticSecret::from(key.to_scalar_bytes())`; `montgomery`:
`PublicKey::from(key.to_montgomery().to_bytes())`; `aead`: `XChaCha20Poly1305::new`. The laws: keys have 32 bytes; the exchange is
symmetric; the X25519 form of a verifying key is the public key of the X25519 form of its signing key. -/
structure Curve where
  Secret : Type
  SignKey : Type
  pub : Secret → Bytes
  dh : Secret → Bytes → Bytes
  verifying : SignKey → Bytes
  scalar : SignKey → Secret
  montgomery : Bytes → Bytes
  aead : Bytes → Aead
  pub_length : ∀ s, (pub s).length = 32
  dh_comm : ∀ a b, dh a (pub b) = dh b (pub a)
  bridge : ∀ k, montgomery (verifying k) = pub (scalar k)

/-- A random number generator as the code uses it: every consumer gets a copy (`rng.clone()`, or `Rng: Copy`), so that what a draw does to
the generator's own state is lost; what remains is what it does to the world outside (`E`: the operating system's entropy).
`secret`: `EphemeralSecret::random_from_rng`; `nonce`: `XChaCha20Poly1305::generate_nonce`. -/
structure Generator (K : Curve) (E : Type) where
  secret : E → K.Secret × E
  nonce : E → Bytes × E
  nonce_length : ∀ e, (nonce e).1.length = 24

namespace Curve
variable (K : Curve) {E : Type}

/-- src/encryption.rs:62-65 `InitialSessionKeyPair`. -/
structure SessionPair where
  priv : K.Secret
  pubKey : Bytes

/-- src/encryption.rs:67-70 `AuthKeyPair`. -/
structure AuthPair where
  priv : K.SignKey
  pubKey : Bytes

/-- src/encryption.rs:94-101 `create_session_keys`. -/
def createSessionKeys (r : Generator K E) (e : E) : K.SessionPair × E :=
  let (s, e) := r.secret e
  (⟨s, K.pub s⟩, e)

/-- src/encryption.rs:103-108 `create_auth_keys`. -/
def createAuthKeys (k : K.SignKey) : K.AuthPair := ⟨k, K.verifying k⟩

/-- src/encryption.rs:110-118 `create_initial_keys`. -/
def createInitialKeys (k : Option K.SignKey) (r : Generator K E) (e : E) : (K.SessionPair × Option K.AuthPair) × E :=
  let (s, e) := K.createSessionKeys r e
  ((s, k.map K.createAuthKeys), e)

/-- src/encryption.rs:121-132 `InitialSessionKeyPair::finalize`: cipher and public key. -/
def SessionPair.finalize {K : Curve} (p : K.SessionPair) (remote : Bytes) : Aead × Bytes := (K.aead (K.dh p.priv remote), p.pubKey)

/-- src/encryption.rs:136-148 `AuthKeyPair::finalize`. -/
def AuthPair.finalize {K : Curve} (p : K.AuthPair) (remote : Bytes) : Aead × Bytes :=
  (K.aead (K.dh (K.scalar p.priv) remote), K.montgomery p.pubKey)

/-- src/encryption.rs:83-92 `create_encryptor_with_auth_keys`. -/
def createEncryptorWithAuthKeys (r : Generator K E) (e : E) (remote : Bytes) : (Aead × Bytes) × E :=
  let (p, e) := K.createSessionKeys r e
  (p.finalize (K.montgomery remote), e)

/-- The private key does not take part in the draw: what `create_initial_keys` draws and leaves is what `create_session_keys` does, which
is why `clientDraws` below and `Spec.DrawnBy` speak of the latter. -/
theorem createInitialKeys_draw (k : Option K.SignKey) (r : Generator K E) (e : E) :
    K.createInitialKeys k r e = (((K.createSessionKeys r e).1, k.map fun k => ⟨k, K.verifying k⟩), (K.createSessionKeys r e).2) := rfl

/-- src/client/encryption_socket_builder.rs:30-45: the client draws its session key and then, if it knows the server's key, a second key
for the handshake: `(session pair, handshake pair)`. -/
def clientDraws (r : Generator K E) (e : E) : (K.SessionPair × K.SessionPair) × E :=
  let (p, e) := K.createSessionKeys r e
  let (q, e) := K.createSessionKeys r e
  ((p, q), e)

/-- A client process with the keys it draws: src/client/encryption_socket_builder.rs:30 and 37 (`create_initial_keys`,
`create_encryptor_with_auth_keys`), 74-75 (`keys.session.finalize`). -/
def client {S : SigScheme} (cfg : CliCfg S) (r : Generator K E) (e : E) (nonces : Nat → E) : Cli S where
  cfg := cfg
  sessionPub := (K.clientDraws r e).1.1.pubKey
  handshakePub := (K.clientDraws r e).1.2.pubKey
  handshake := fun k => (K.createEncryptorWithAuthKeys r (K.createSessionKeys r e).2 k).1.1
  session := fun k => ((K.clientDraws r e).1.1.finalize k).1
  nonce := fun i => (r.nonce (nonces i)).1
  nonce_length := fun _ => r.nonce_length _

/-- A server process: the handshake cipher of its private key (src/server/connection_builder.rs:85-100; without one no datagram is
opened, any cipher will do), and the session ciphers (src/server/helpers/connection.rs:95-99, 121-125). The code keeps the session pair in
`SessionKeys`; the model's `SessionKeys` names it by its public part, `drawn` finds it again. -/
def server {S : SigScheme} (cfg : SrvCfg S) (maxConn : Nat) (preferSeek : Bool) (key : K.SignKey) (drawn : Bytes → K.SessionPair)
    (r : Generator K E) (nonces : Nat → E) : Srv S where
  cfg := cfg
  maxConn := maxConn
  preferSeek := preferSeek
  handshake := fun p => ((K.createAuthKeys key).finalize p).1
  session := fun k => ((drawn k.localPub).finalize k.remotePub).1
  nonce := fun i => (r.nonce (nonces i)).1
  nonce_length := fun _ => r.nonce_length _

end Curve

namespace Spec
variable {S : SigScheme}

/-- The two processes run this code with these libraries: the client draws its keys from `r`, `e`; the server has the private key `key`
(if it has one at all, `cfg.privateKey` is that key), and the pairs it draws for connections are those of `drawn`. -/
structure Keyed {E F : Type} (K : Curve) (v : Parties S) (r : Generator K E) (e : E) (key : K.SignKey) (drawn : Bytes → K.SessionPair)
    (r' : Generator K F) : Prop where
  cli : ∃ nonces, v.cli = K.client v.cli.cfg r e nonces
  srv : ∃ nonces, v.srv = K.server v.srv.cfg v.srv.maxConn v.srv.preferSeek key drawn r' nonces
  priv : ∀ a, v.srv.cfg.privateKey = some a → a.pub = K.verifying key

/-- The session key of a new connection is one the server drew (src/server/extensions.rs:203). -/
def DrawnBy {F : Type} (K : Curve) (r' : Generator K F) (drawn : Bytes → K.SessionPair) (io : NewIo) : Prop :=
  ∃ f, io.sessionPub = (K.createSessionKeys r' f).1.pubKey ∧ drawn io.sessionPub = (K.createSessionKeys r' f).1

/-- A generator whose draws do not touch anything outside of it: as each consumer gets a copy, all draws are the same. -/
def SelfContained {E : Type} {K : Curve} (r : Generator K E) : Prop :=
  ∃ s n, (∀ e, r.secret e = (s, e)) ∧ ∀ e, r.nonce e = (n, e)

end Spec

open Spec
variable {S : SigScheme}

/-- **C76**: whatever keys the two sides draw, the pair of the client and the pair of the server finalize to the same session cipher. -/
theorem c76_session_cipher (K : Curve) {E F : Type} (r : Generator K E) (e : E) (r' : Generator K F) (f : F) :
    ((K.createSessionKeys r e).1.finalize (K.createSessionKeys r' f).1.pubKey).1 =
      ((K.createSessionKeys r' f).1.finalize (K.createSessionKeys r e).1.pubKey).1 := by
  simp only [Curve.SessionPair.finalize, Curve.createSessionKeys, K.dh_comm]

/-- **C76**: the client's handshake cipher for the server's verifying key is the one which the server computes with its signing key from the
public key in the client's datagram. -/
theorem c76_handshake_cipher (K : Curve) {E : Type} (r : Generator K E) (e : E) (key : K.SignKey) :
    (K.createEncryptorWithAuthKeys r e (K.createAuthKeys key).pubKey).1.1 =
      ((K.createAuthKeys key).finalize (K.createEncryptorWithAuthKeys r e (K.createAuthKeys key).pubKey).1.2).1 := by
  simp only [Curve.SessionPair.finalize, Curve.AuthPair.finalize, Curve.createEncryptorWithAuthKeys, Curve.createSessionKeys,
    Curve.createAuthKeys, K.bridge, K.dh_comm]

theorem seal_open (A : Aead) (nonce b : Bytes) (lim : Nat) (hn : nonce.length = 24) (h0 : b ≠ []) (hl : b.length ≤ lim) :
    ∃ d, sealPacket A nonce b lim = .ok d ∧ openPacket A d = .ok b := by
  obtain ⟨p, ct, tag, h1, -, -, -, -, h2⟩ := c27_packet A nonce b lim hn h0 hl
  exact ⟨_, h1, h2⟩

/-- **C76**, through the wire: the server accepts a request carrying the client's session key as text, and answers with its own; whenever
encryption was agreed, the client which reads the answer and the server compute the same cipher, and each opens what the other seals. -/
theorem c76_negotiated (K : Curve) {E F : Type} (r : Generator K E) (e : E) (r' : Generator K F) (f : F) (cfg : SrvCfg S)
    (hb : 512 ≤ cfg.maxBlock ∧ cfg.maxBlock ≤ 65535) (hw : 1 ≤ cfg.maxWindow ∧ cfg.maxWindow ≤ 65535) (co : Opts) (auth : Option (AuthKey S))
    (hco : co.blockSize ≤ 65535 ∧ 1 ≤ co.window ∧ co.window ≤ 65535 ∧ ∀ s, co.fileSize = some s → s < 2 ^ 64)
    (known : Option Bytes) (hknown : ∀ p, known = some p → ∃ a, cfg.privateKey = some a ∧ a.pub = p)
    (handshake : Level) (hh : handshake = .full ∧ co.level = .full ∨ handshake = .none)
    (kind : ReqKind) (hkind : ∀ a, kind = .read a → (co.fileSize = none ∨ co.fileSize = some 0) ∧ ∀ s, a = some s → s < 2 ^ 64)
    (u : Exts) (o : Opts) (k : SessionKeys)
    (h : srvNegotiate cfg (K.createSessionKeys r' f).1.pubKey handshake
      (createExtensions co (⟨(K.createSessionKeys r e).1.pubKey, auth⟩ : InitialKeys S)) kind = .ok (u, o, some k)) :
    ∃ co' rk, cliOack S auth.isSome known (createExtensions co (⟨(K.createSessionKeys r e).1.pubKey, auth⟩ : InitialKeys S)) co u =
        (.ok (co', some rk), []) ∧
      ((K.createSessionKeys r e).1.finalize rk.session).1 = ((K.createSessionKeys r' f).1.finalize k.remotePub).1 ∧
      ∀ nonce b lim, nonce.length = 24 → b ≠ [] → b.length ≤ lim →
        (∃ d, sealPacket ((K.createSessionKeys r e).1.finalize rk.session).1 nonce b lim = .ok d ∧
          openPacket ((K.createSessionKeys r' f).1.finalize k.remotePub).1 d = .ok b) ∧
        ∃ d, sealPacket ((K.createSessionKeys r' f).1.finalize k.remotePub).1 nonce b lim = .ok d ∧
          openPacket ((K.createSessionKeys r e).1.finalize rk.session).1 d = .ok b := by
  obtain ⟨⟨co', rk, a1, -, -, -, -, a6, -⟩, -⟩ := c18_agreement cfg hb hw co ⟨(K.createSessionKeys r e).1.pubKey, auth⟩ (K.pub_length _)
    (K.createSessionKeys r' f).1.pubKey (K.pub_length _) hco known hknown handshake hh kind hkind u o (some k) h
  rcases a6 with ⟨-, hk, -⟩ | ⟨au, hk, rfl⟩
  · cases hk
  · cases hk
    have heq := c76_session_cipher K r e r' f
    refine ⟨co', _, a1, heq, fun nonce b lim h1 h2 h3 => ?_⟩
    rw [heq]
    exact ⟨seal_open _ _ _ _ h1 h2 h3, seal_open _ _ _ _ h1 h2 h3⟩

/-! ### The assumptions of C52, C53, C74 and C75 about keys -/

section
variable {E F : Type} {K : Curve} {v : Parties S} {r : Generator K E} {e : E} {key : K.SignKey} {drawn : Bytes → K.SessionPair} {r' : Generator K F}

/-- **C76**: for two processes which run this code, the assumption `Spec.Os` holds of every new connection for which the server draws a
session key and the operating system opens files of less than 2^64 bytes (small ones if datagrams do not age). -/
theorem c76_os (hk : Keyed K v r e key drawn r') {io : NewIo} (hd : DrawnBy K r' drawn io) {late : Option Nat}
    (size : ∀ name n file, io.openRead name = some (some n, file) → n < 2 ^ 64)
    (small : ∀ name n file, late = none → io.openRead name = some (n, file) → file.length ≤ 26000000) : Os v late io where
  key := by
    obtain ⟨f, h1, -⟩ := hd
    rw [h1]; exact K.pub_length _
  exchange := by
    obtain ⟨f, h1, h2⟩ := hd
    obtain ⟨n1, c1⟩ := hk.cli
    obtain ⟨n2, c2⟩ := hk.srv
    rw [c1, c2]
    simp only [Curve.server, Curve.client, h2]
    rw [h1]
    exact (c76_session_cipher K r e r' f).symm
  size := size
  small := small

/-- **C76**: and the assumptions of `Spec.Honest` about keys hold of a client whose known key of the server, if it has one, is the server's. -/
theorem c76_known (hk : Keyed K v r e key drawn r') {a : AuthKey S} (ha : v.srv.cfg.privateKey = some a)
    (hr : ∀ k, v.cli.cfg.remoteKey = some k → k = a.pub) :
    v.cli.sessionPub.length = 32 ∧ v.cli.handshakePub.length = 32 ∧
    ∀ k, v.cli.cfg.remoteKey = some k → (∃ a, v.srv.cfg.privateKey = some a ∧ a.pub = k) ∧
      v.cli.handshake k = v.srv.handshake v.cli.handshakePub := by
  obtain ⟨n1, c1⟩ := hk.cli
  obtain ⟨n2, c2⟩ := hk.srv
  have hp := hk.priv a ha
  refine ⟨by rw [c1]; exact K.pub_length _, by rw [c1]; exact K.pub_length _, fun k hkk => ⟨⟨a, ha, (hr k hkk).symm⟩, ?_⟩⟩
  rw [hr k hkk, hp, c1, c2]
  exact c76_handshake_cipher K r (K.createSessionKeys r e).2 key

end

/-! ### Copies of a generator -/

/-- **C76**, finding: the client passes copies of its generator on. If the generator keeps its state to itself, the session key is the key
of the handshake (whose public part stands at the end of every request, in the clear), and all packets are encrypted with the same nonce. -/
theorem c76_copied_generator (K : Curve) {E : Type} (r : Generator K E) (hr : SelfContained r) (cfg : CliCfg S) (e : E) (nonces : Nat → E) :
    (K.client cfg r e nonces : Cli S).sessionPub = (K.client cfg r e nonces : Cli S).handshakePub ∧
    (∀ i j, (K.client cfg r e nonces : Cli S).nonce i = (K.client cfg r e nonces : Cli S).nonce j) ∧
    ∀ A i j b b' lim d d', sealPacket A ((K.client cfg r e nonces : Cli S).nonce i) b lim = .ok d →
      sealPacket A ((K.client cfg r e nonces : Cli S).nonce j) b' lim = .ok d' → d.drop (d.length - 24) = d'.drop (d'.length - 24) := by
  obtain ⟨s, n, hs, hn⟩ := hr
  have hnn : ∀ i, (K.client cfg r e nonces : Cli S).nonce i = n := fun i => by simp only [Curve.client, hn]
  have hlen : n.length = 24 := by have := r.nonce_length e; rw [hn] at this; exact this
  refine ⟨?_, fun i j => by rw [hnn, hnn], fun A i j b b' lim d d' h h' => ?_⟩
  · simp only [Curve.client, Curve.clientDraws, Curve.createSessionKeys, hs]
  · have key : ∀ b d, sealPacket A n b lim = .ok d → d.drop (d.length - 24) = n := by
      intro b d h
      unfold sealPacket at h
      split at h
      · cases h
      · rename_i p _
        unfold encrypt at h
        simp only [Nat.not_lt_zero, if_false, List.drop_zero, List.take_zero, List.nil_append] at h
        cases h
        rw [List.length_append, hlen, Nat.add_sub_cancel, List.drop_left]
    rw [hnn] at h h'
    rw [key b d h, key b' d' h']

end Tftp

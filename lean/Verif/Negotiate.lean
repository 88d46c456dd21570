import Verif.Packet
import Verif.Text
import Verif.Keys
/-
Option negotiation: src/client/extensions.rs, src/server/extensions.rs, and the parts of
src/server/connection_builder.rs and src/server/validation.rs which decide about the options of a new transfer.

Durations are in milliseconds. Signatures and curve points are parameters (`SigScheme`).
The `encryption` feature is on.
-/
namespace Tftp

/-- Ed25519 as used by the code: which byte strings are verifying keys (`VerifyingKey::from_bytes`), and
`VerifyingKey::verify(message, signature)`. -/
structure SigScheme where
  point : Bytes → Bool
  verify : (key message signature : Bytes) → Bool

/-- A signing key: its public part and `sign`. -/
structure AuthKey (S : SigScheme) where
  pub : Bytes
  sign : Bytes → Bytes
  pub_length : pub.length = 32
  pub_point : S.point pub = true
  sign_length : ∀ m, (sign m).length = 64
  sign_ok : ∀ m, S.verify pub m (sign m) = true

/-- src/config.rs:68-74 `ConnectionOptions`. -/
structure Opts where
  blockSize : Nat
  retry : Nat
  fileSize : Option Nat
  level : Level
  window : Nat
deriving DecidableEq

/-- src/config.rs:76-86 `ConnectionOptions::default`. -/
def Opts.default : Opts := ⟨512, 80, none, .none, 1⟩

/-- src/config.rs:99-114 `block_size_with_encryption`. -/
def Opts.payload (o : Opts) : Nat :=
  match o.level with
  | .data => o.blockSize - 16 - 24
  | .full | .protocol => o.blockSize - 16 - 1 - 24
  | .optionalData | .optionalProtocol | .none => o.blockSize

/-- src/server/config.rs:9-26 `ServerConfig`, the fields used here. -/
structure SrvCfg (S : SigScheme) where
  maxBlock : Nat
  maxWindow : Nat
  requestTimeout : Nat
  maxFileSize : Nat
  requireFull : Bool
  authorized : Option (List Bytes)
  privateKey : Option (AuthKey S)
  errorToAuthorizedOnly : Bool

/-- src/error.rs `ExtensionError`. -/
inductive ExtErr
  | serverRequired (l : Level) | clientRequired (l : Level) | invalidExtension (e : Extension)
  | invalidPublicKey | invalidSignature | notAuthorized | encoding
deriving DecidableEq

/-- src/server/helpers/connection.rs:28-31 `SessionKeys`: the public part of the server's session key and the client's
session public key. -/
structure SessionKeys where
  localPub : Bytes
  remotePub : Bytes
deriving DecidableEq

/-! ### Client: request -/

/-- src/encryption.rs:72-75 `InitialKeys`, public parts: session key and the optional authorization key. -/
structure InitialKeys (S : SigScheme) where
  sessionPub : Bytes
  auth : Option (AuthKey S)

/-- src/client/extensions.rs:54-115 `create_extensions`. -/
def createExtensions {S : SigScheme} (o : Opts) (keys : InitialKeys S) : Exts :=
  let u := Exts.empty
  let u := if o.blockSize ≠ 512 then u.insert .blockSize (decimal o.blockSize) else u
  let u := if o.retry ≠ 80 ∧ o.retry / 1000 ≥ 1 then u.insert .timeout (decimal (o.retry / 1000)) else u
  let u := match o.fileSize with
    | some s => u.insert .transferSize (decimal s)
    | none => u
  let u := if o.window ≠ 1 then u.insert .windowSize (decimal o.window) else u
  if o.level ≠ .none then
    let u := u.insert .sessionPublicKey (encodeKey keys.sessionPub)
    let u := u.insert .encryptionLevel o.level.text
    match keys.auth with
    | some a => (u.insert .authPublicKey (encodeKey a.pub)).insert .signature (encodeKey (a.sign keys.sessionPub))
    | none => u
  else u

/-! ### Server: reply -/

/-- src/server/extensions.rs:36-53: block size. -/
def srvBlock {S : SigScheme} (cfg : SrvCfg S) (ce : Exts) (u : Exts) (o : Opts) : Exts × Opts :=
  match ce .blockSize with
  | none => (u, o)
  | some t =>
    let n := (parseUInt 65535 t).getD 0
    if 512 ≤ n ∧ n ≤ cfg.maxBlock then (u.insert .blockSize (decimal n), { o with blockSize := n })
    else if n > cfg.maxBlock then
      (u.insert .blockSize (decimal cfg.maxBlock), { o with blockSize := cfg.maxBlock })
    else (u, o)

/-- src/server/extensions.rs:55-77: window size. -/
def srvWindow {S : SigScheme} (cfg : SrvCfg S) (ce : Exts) (u : Exts) (o : Opts) : Exts × Opts :=
  match ce .windowSize with
  | none => (u, o)
  | some t =>
    let n := (parseUInt 65535 t).getD 0
    if 1 ≤ n ∧ n ≤ cfg.maxWindow then (u.insert .windowSize (decimal n), { o with window := n })
    else if n > cfg.maxWindow then
      (u.insert .windowSize (decimal cfg.maxWindow), { o with window := cfg.maxWindow })
    else (u, o)

/-- src/server/extensions.rs:79-92: retransmission timeout. -/
def srvTimeout {S : SigScheme} (cfg : SrvCfg S) (ce : Exts) (u : Exts) (o : Opts) : Exts × Opts :=
  match ce .timeout with
  | none => (u, o)
  | some t =>
    let n := (parseUInt 255 t).getD 0
    if 1 ≤ n ∧ n ≤ cfg.requestTimeout / 1000 then (u.insert .timeout (decimal n), { o with retry := n * 1000 })
    else (u, o)

/-- src/server/extensions.rs:94-107: transfer size. -/
def srvSize (ce : Exts) (u : Exts) (o : Opts) : Exts × Opts :=
  match ce .transferSize with
  | none => (u, o)
  | some t =>
    match parseUInt (2 ^ 64 - 1) t with
    | some n => (u.insert .transferSize (decimal n), { o with fileSize := some n })
    | none => (u, o)

/-- `.map(parse).transpose()?`: an absent option is fine, a malformed one is an error. -/
def optParse (v : Option Bytes) (f : Bytes → Option α) : Except ExtErr (Option α) :=
  match v with
  | none => .ok none
  | some t => match f t with
    | some a => .ok (some a)
    | none => .error .encoding

/-- src/server/extensions.rs:166-190 (and src/client/extensions.rs:200-226): if an authorization key is given, a signature
of the session key valid under it must be given too. -/
def checkAuth (S : SigScheme) (e : Exts) (session : Bytes) : Except ExtErr (Option Bytes) :=
  match optParse (e .authPublicKey) (decodeVerifyingKey S.point) with
  | .error x => .error x
  | .ok none => .ok none
  | .ok (some k) =>
    match optParse (e .signature) decodeSignature with
    | .error x => .error x
    | .ok none => .error .invalidSignature
    | .ok (some sig) => if S.verify k session sig then .ok (some k) else .error .invalidSignature

/-- src/server/extensions.rs:199-224: the server's own keys in the reply. -/
def srvKeys {S : SigScheme} (cfg : SrvCfg S) (session : Bytes) (auth : Option Bytes) (u : Exts) : Exts :=
  let u := u.insert .sessionPublicKey (encodeKey session)
  match cfg.privateKey, auth with
  | some a, some _ =>
    (u.insert .authPublicKey (encodeKey a.pub)).insert .signature (encodeKey (a.sign session))
  | _, _ => u

/-- src/server/extensions.rs:29-231 `parse_extensions`; `session` is the public part of the freshly generated session key
(`create_initial_keys(config.private_key, rng)`, line 197). `o` are the options of the builder: the defaults, with level
`full` if the request arrived encrypted. -/
def srvParse {S : SigScheme} (cfg : SrvCfg S) (session : Bytes) (ce : Exts) (o : Opts) :
    Except ExtErr (Exts × Opts × Option SessionKeys) :=
  let (u, o) := srvBlock cfg ce Exts.empty o
  let (u, o) := srvWindow cfg ce u o
  let (u, o) := srvTimeout cfg ce u o
  let (u, o) := srvSize ce u o
  match optParse (ce .encryptionLevel) Level.parse with
  | .error x => .error x
  | .ok clientLevel =>
    if cfg.requireFull = true ∧ o.level ≠ .full then .error (.serverRequired .full)
    else
      match clientLevel.getD .none with
      | .none => match cfg.authorized with
        | none => .ok (u, o, none)
        | some _ => .error (.serverRequired .data)
      | .full =>
        if o.level ≠ .full then .error (.invalidExtension .encryptionLevel)
        else go u { o with level := .full } clientLevel
      | .data | .optionalData => go u { o with level := .data } clientLevel
      | .protocol | .optionalProtocol => go u { o with level := .protocol } clientLevel
where
  /-- src/server/extensions.rs:147-229. -/
  go (u : Exts) (o : Opts) (clientLevel : Option Level) : Except ExtErr (Exts × Opts × Option SessionKeys) :=
    let u := if clientLevel.isSome then u.insert .encryptionLevel o.level.text else u
    match optParse (ce .sessionPublicKey) (decodeKey 32) with
    | .error x => .error x
    | .ok none => .error .invalidPublicKey
    | .ok (some remote) =>
      match checkAuth S ce remote with
      | .error x => .error x
      | .ok auth =>
        match cfg.authorized, auth with
        | some _, none => .error .invalidPublicKey
        | some ks, some k =>
          if k ∈ ks then .ok (srvKeys cfg session auth u, o, some ⟨session, remote⟩) else .error .notAuthorized
        | none, _ => .ok (srvKeys cfg session auth u, o, some ⟨session, remote⟩)

/-- src/server/connection_builder.rs:218-334 (`build_reader`): once the file is open its size replaces the requested one;
`actual` is the size reported by `create_reader`. -/
def srvReadSize (actual : Option Nat) (u : Exts) (o : Opts) : Exts × Opts :=
  let o := { o with fileSize := actual }
  match actual, u .transferSize with
  | some s, some _ => if s > 0 then (u.insert .transferSize (decimal s), o) else (u, o)
  | none, some _ => (u.remove .transferSize, o)
  | _, none => (u, o)

/-- src/server/validation.rs:29-33, 45-59 `handle_file_size(options.file_size.unwrap_or(0), max_file_size)`. -/
def sizeAllowed {S : SigScheme} (cfg : SrvCfg S) (o : Opts) : Bool := decide (o.fileSize.getD 0 ≤ cfg.maxFileSize)

/-- The kind of a request; for a read the size of the opened file as reported by `create_reader`. -/
inductive ReqKind
  | read (actual : Option Nat)
  | write

/-- What the server makes of the options of a request: src/server/helpers/connection.rs:33-66 `handle_packet` and the
option part of `build_reader`/`build_writer` (src/server/connection_builder.rs:151-158, 212-243).
The options confirmed to the client, the options used, and the session keys. -/
def srvNegotiate {S : SigScheme} (cfg : SrvCfg S) (session : Bytes) (handshake : Level) (ce : Exts) (kind : ReqKind) :
    Except ExtErr (Exts × Opts × Option SessionKeys) :=
  match srvParse cfg session ce { Opts.default with level := handshake } with
  | .error x => .error x
  | .ok (u, o, k) =>
    if sizeAllowed cfg o then
      match kind with
      | .write => .ok (u, o, k)
      | .read actual => .ok ((srvReadSize actual u o).1, (srvReadSize actual u o).2, k)
    else .error (.invalidExtension .transferSize)

/-! ### Client: reply -/

/-- src/client/extensions.rs:29-52 `validate_extensions`. -/
def validateExtensions (se used : Exts) : Bool := Extension.all.all fun e => (se e).isNone || (used e).isSome

/-- src/client/extensions.rs:121-130: block size. -/
def cliBlock (se : Exts) (o : Opts) : Except ExtErr Opts :=
  match se .blockSize with
  | some t =>
    let n := (parseUInt 65535 t).getD 0
    if 512 ≤ n ∧ n ≤ o.blockSize then .ok { o with blockSize := n } else .error (.invalidExtension .blockSize)
  | none => .ok { o with blockSize := 512 }

/-- src/client/extensions.rs:132-141: window size. -/
def cliWindow (se : Exts) (o : Opts) : Except ExtErr Opts :=
  match se .windowSize with
  | some t =>
    let n := (parseUInt 65535 t).getD 0
    if 1 ≤ n ∧ n ≤ o.window then .ok { o with window := n } else .error (.invalidExtension .windowSize)
  | none => .ok { o with window := 1 }

/-- src/client/extensions.rs:143-153: retransmission timeout. -/
def cliTimeout (se : Exts) (o : Opts) : Except ExtErr Opts :=
  match se .timeout with
  | some t =>
    let n := (parseUInt 255 t).getD 0
    if 1 ≤ n ∧ n ≤ 255 then .ok { o with retry := n * 1000 } else .error (.invalidExtension .timeout)
  | none => .ok { o with retry := 80 }

/-- src/client/extensions.rs:155-162: transfer size. -/
def cliSize (se : Exts) (o : Opts) : Except ExtErr Opts :=
  match se .transferSize with
  | some t =>
    let n := (parseUInt (2 ^ 64 - 1) t).getD 0
    if o.fileSize = none ∨ o.fileSize = some 0 then .ok { o with fileSize := some n }
    else if o.fileSize ≠ some n then .error (.invalidExtension .transferSize)
    else .ok o
  | none => .ok o

/-- src/client/extensions.rs:121-162: the numeric options. -/
def cliNumbers (se : Exts) (o : Opts) : Except ExtErr Opts :=
  match cliBlock se o with
  | .error x => .error x
  | .ok o => match cliWindow se o with
    | .error x => .error x
    | .ok o => match cliTimeout se o with
      | .error x => .error x
      | .ok o => cliSize se o

/-- src/encryption.rs:78-82 `PublicKeyPair`. -/
structure RemoteKeys where
  auth : Option Bytes
  session : Bytes
deriving DecidableEq

/-- src/client/extensions.rs:117-244 `parse_extensions`. -/
def cliParse (S : SigScheme) (se : Exts) (o : Opts) : Except ExtErr (Opts × Option RemoteKeys) :=
  match cliNumbers se o with
  | .error x => .error x
  | .ok o =>
    if o.level = .none then .ok (o, none)
    else match optParse (se .encryptionLevel) Level.parse with
      | .error x => .error x
      | .ok reply =>
        if reply.getD .none = .none ∧ (o.level = .optionalData ∨ o.level = .optionalProtocol) then
          .ok ({ o with level := .none }, none)
        else if (o.level = .data ∨ o.level = .protocol) ∧ ¬ (reply = some .data ∨ reply = some .protocol) then
          .error (.clientRequired o.level)
        else match reply with
          | none => .error (.invalidExtension .encryptionLevel)
          | some l =>
            match optParse (se .sessionPublicKey) (decodeKey 32) with
            | .error x => .error x
            | .ok none => .error (.invalidExtension .sessionPublicKey)
            | .ok (some session) =>
              match checkAuth S se session with
              | .error x => .error x
              | .ok auth => .ok ({ o with level := l }, some ⟨auth, session⟩)

/-- Why a client gives up (src/error.rs `PacketError`, `ExtensionError`, io errors). -/
inductive CliErr | remoteError | ext (e : ExtErr) | invalid | timeout | io
deriving DecidableEq

/-- src/client/connection.rs:95-127: an option acknowledgement arrives. `used` are the options of the request,
`hasKey` is `config.private_key.is_some()`, `known` is `config.remote_public_key`. The result and the packets sent. -/
def cliOack (S : SigScheme) (hasKey : Bool) (known : Option Bytes) (used : Exts) (o : Opts) (se : Exts) :
    Except CliErr (Opts × Option RemoteKeys) × List Packet :=
  if validateExtensions se used then
    match cliParse S se o with
    | .error x => (.error (.ext x), [])
    | .ok (o', rk) =>
      if o'.level ≠ .none ∧ hasKey = true ∧ known.isSome ∧ known ≠ rk.bind (·.auth) then (.error .remoteError, [])
      else (.ok (o', rk), [])
  else (.error .remoteError, [.error .illegalOperation (ascii "Server sent options not initialized by client")])

/-- src/client/connection.rs:128-147: the server answered without option acknowledgement. -/
def cliPlain (o : Opts) : Opts := { o with blockSize := 512 }

end Tftp

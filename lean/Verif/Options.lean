import Verif.ServerAdmit
import Verif.ServerTable
import Verif.Sessions
import Verif.EndWorld
/-
C65, C66: the options of the binary: std-binary/src/cli.rs (what the command line accepts), std-binary/src/config.rs (`try_into`), and the beginning of
std-binary/src/sender.rs and std-binary/src/receiver.rs.

The build of the binary: features `std`, `alloc`, `encryption`; not Windows. Of the command line parser only the checks of numbers are modelled; options which are
passed on unchanged (directory, allow-overwrite, directory-list, max-directory-depth, port change) are left out. Files are a function from names to contents.
-/
namespace Tftp
open Spec

/-! ### Server -/

/-- std-binary/src/cli.rs:101-183 `ServerCliConfig`. `authorizedKeys`: a file name. `privateKey`: a key or a file name. -/
structure ServerArgs where
  maxConnections : Nat
  maxWindow : Nat
  requestTimeout : Nat
  maxFileSize : Nat
  maxBlock : Nat
  authorizedKeys : Option Bytes
  privateKey : Option Bytes
  requireFull : Option Bool
  preferSeek : Bool
  errorToAuthorizedOnly : Option Bool

/-- std-binary/src/cli.rs:101-183: what a server started without any option has. -/
def ServerArgs.default : ServerArgs := ⟨5000, 1000, 15000, 104857600, 1425, none, none, none, false, none⟩

/-- std-binary/src/cli.rs:112-133: the command line parser refuses other numbers (the limits are in src/config.rs:14, 35-37, 61-66). -/
def ServerArgs.accepted (a : ServerArgs) : Bool :=
  decide (1 ≤ a.maxConnections ∧ a.maxConnections ≤ 5000) && decide (1 ≤ a.maxWindow ∧ a.maxWindow ≤ 1000) &&
  decide (512 ≤ a.maxBlock ∧ a.maxBlock ≤ 1425) && decide (a.requestTimeout < 2 ^ 64) && decide (a.maxFileSize < 2 ^ 64)

/-- `as u16`. -/
def asU16 (n : Nat) : Nat := n % 65536

/-- std-binary/src/encryption_io.rs:71-76: `read_line` into an empty string, then `trim_end`. -/
def firstLine (f : Bytes) : Option Bytes :=
  let l := f.takeWhile (· ≠ 10)
  if utf8Valid l then some (trimBack l.reverse).reverse else none

/-- std-binary/src/encryption_io.rs:57-80 `read_private_value_or_file`. -/
def privateOption (files : Bytes → Option Bytes) (arg : Bytes) : Option Bytes := readPrivate ((files arg).bind firstLine) arg

/-- An option which may be absent, and is an error if it can not be used. -/
def optional {α β} (f : α → Option β) : Option α → Option (Option β)
  | none => some none
  | some x => (f x).map some

/-- The part of `ServerConfig` which matters for the transfers. -/
structure ServerSetup (S : SigScheme) where
  cfg : SrvCfg S
  maxConn : Nat
  preferSeek : Bool

/-- std-binary/src/config.rs:91-159 `ServerCliConfig::try_into`. `signer`: the signing key made of 32 bytes. `none`: the server does not start. -/
def ServerArgs.config {S} (a : ServerArgs) (files : Bytes → Option Bytes) (signer : Bytes → AuthKey S) : Option (ServerSetup S) :=
  if a.accepted then
    let requireFull := a.requireFull.getD a.authorizedKeys.isSome
    match optional (fun p => (files p).bind (readAuthorizedKeys S.point)) a.authorizedKeys, optional (privateOption files) a.privateKey with
    | some keys, some priv => some
      { cfg := ⟨asU16 a.maxBlock, asU16 a.maxWindow, a.requestTimeout, a.maxFileSize, requireFull, keys, priv.map signer,
          a.errorToAuthorizedOnly.getD requireFull⟩
        maxConn := asU16 a.maxConnections
        preferSeek := a.preferSeek }
    | _, _ => none
  else none

/-- Specification: `v` is a server started with these options. -/
def Spec.StartedWith {S} (v : Srv S) (a : ServerArgs) (files : Bytes → Option Bytes) (signer : Bytes → AuthKey S) : Prop :=
  a.config files signer = some ⟨v.cfg, v.maxConn, v.preferSeek⟩

theorem optional_some {α β} {f : α → Option β} {x : Option α} {y : Option β} (h : optional f x = some y) :
    (x = none ∧ y = none) ∨ ∃ a b, x = some a ∧ f a = some b ∧ y = some b := by
  cases x with
  | none => simp only [optional, Option.some.injEq] at h; exact .inl ⟨rfl, h.symm⟩
  | some a =>
    simp only [optional, Option.map_eq_some_iff] at h
    obtain ⟨b, h1, h2⟩ := h
    exact .inr ⟨a, b, rfl, h1, h2.symm⟩

theorem started_with {S} {v : Srv S} {a : ServerArgs} {files : Bytes → Option Bytes} {signer : Bytes → AuthKey S} (h : StartedWith v a files signer) :
    (1 ≤ a.maxConnections ∧ a.maxConnections ≤ 5000) ∧ (1 ≤ a.maxWindow ∧ a.maxWindow ≤ 1000) ∧ (512 ≤ a.maxBlock ∧ a.maxBlock ≤ 1425) ∧
    v.maxConn = a.maxConnections ∧ v.cfg.maxWindow = a.maxWindow ∧ v.cfg.maxBlock = a.maxBlock ∧ v.cfg.requestTimeout = a.requestTimeout ∧
    v.cfg.maxFileSize = a.maxFileSize ∧ v.preferSeek = a.preferSeek ∧
    v.cfg.requireFull = a.requireFull.getD a.authorizedKeys.isSome ∧
    v.cfg.errorToAuthorizedOnly = a.errorToAuthorizedOnly.getD (a.requireFull.getD a.authorizedKeys.isSome) ∧
    optional (fun p => (files p).bind (readAuthorizedKeys S.point)) a.authorizedKeys = some v.cfg.authorized ∧
    ∃ priv, optional (privateOption files) a.privateKey = some priv ∧ v.cfg.privateKey = priv.map signer := by
  unfold StartedWith ServerArgs.config at h
  split at h
  · rename_i ha
    simp only [ServerArgs.accepted, Bool.and_eq_true, decide_eq_true_eq] at ha
    obtain ⟨⟨⟨⟨h1, h2⟩, h3⟩, h4⟩, h5⟩ := ha
    split at h
    · rename_i keys priv hk hp
      simp only [Option.some.injEq, ServerSetup.mk.injEq] at h
      obtain ⟨h6, h7, h8⟩ := h
      refine ⟨h1, h2, h3, ?_, ?_, ?_, ?_, ?_, h8.symm, ?_, ?_, ?_, priv, hp, ?_⟩
      · rw [← h7]; unfold asU16; omega
      all_goals rw [← h6]
      · show asU16 _ = _; unfold asU16; omega
      · show asU16 _ = _; unfold asU16; omega
      · exact hk
    · cases h
  · cases h

/-- **C65**: the limits given to the server are the ones it keeps, in every history: the number of transfers, the block and window sizes and the retry time of each. -/
theorem c65_limits {S} {v : Srv S} {a : ServerArgs} {files : Bytes → Option Bytes} {signer : Bytes → AuthKey S} (h : StartedWith v a files signer) (evs : List SrvEv) :
    (v.run ⟨[], 0⟩ evs).clients.length ≤ a.maxConnections ∧
    ∀ d c, (v.run ⟨[], 0⟩ evs).conn d = some c → (512 ≤ c.opts.blockSize ∧ c.opts.blockSize ≤ a.maxBlock ∧ a.maxBlock ≤ 1425) ∧
      (1 ≤ c.opts.window ∧ c.opts.window ≤ a.maxWindow ∧ a.maxWindow ≤ 1000) ∧ (c.opts.retry = 80 ∨ 1000 ≤ c.opts.retry ∧ c.opts.retry ≤ a.requestTimeout) := by
  obtain ⟨h1, h2, h3, h4, h5, h6, h7, -⟩ := started_with h
  refine ⟨by rw [← h4]; exact (c22_table_bound v evs).1, fun d c hc => ?_⟩
  obtain ⟨g1, g2, g3⟩ := c16_all_connections v (by omega) (by omega) evs d c hc
  rw [h6] at g1; rw [h5] at g2; rw [h7] at g3
  exact ⟨⟨g1.1, g1.2, h3.2⟩, ⟨g2.1, g2.2, h2.2⟩, g3⟩

/-- Specification: the datagram is a request with one of the keys `ks` and the signature, valid under that key, of the session key `remote`. -/
def Spec.SignedRequest {S} (v : Srv S) (ks : List Bytes) (dg remote : Bytes) : Prop :=
  ∃ write r key sig keyText sigText remoteText, v.requestOf dg = some (write, r) ∧
    r.exts .authPublicKey = some keyText ∧ decodeVerifyingKey S.point keyText = some key ∧ key ∈ ks ∧
    r.exts .signature = some sigText ∧ decodeSignature sigText = some sig ∧
    r.exts .sessionPublicKey = some remoteText ∧ decodeKey 32 remoteText = some remote ∧ S.verify key remote sig = true

/-- **C65**: a server with `--authorized-keys`, whatever its other options: the file was read, and every transfer it ever has goes back to a request signed with
a key of the file, and is encrypted with the cipher of the signed session key. -/
theorem c65_authorized_keys {S} {v : Srv S} {a : ServerArgs} {files : Bytes → Option Bytes} {signer : Bytes → AuthKey S} (h : StartedWith v a files signer)
    (path : Bytes) (hp : a.authorizedKeys = some path) :
    ∃ f ks, files path = some f ∧ readAuthorizedKeys S.point f = some ks ∧ ∀ evs d c, (v.run ⟨[], 0⟩ evs).conn d = some c →
      ∃ t dg io remote, SrvEv.main t d dg io ∈ evs ∧ SignedRequest v ks dg remote ∧ c.enc = some (v.session ⟨io.sessionPub, remote⟩) ∧
        (c.opts.level = .data ∨ c.opts.level = .protocol ∨ c.opts.level = .full) := by
  obtain ⟨-, -, -, -, -, -, -, -, -, -, -, hk, -⟩ := started_with h
  rw [hp] at hk
  rcases optional_some hk with ⟨h1, -⟩ | ⟨x, ks, h1, h2, h3⟩
  · cases h1
  cases h1
  obtain ⟨f, h4, h5⟩ := Option.bind_eq_some_iff.mp h2
  refine ⟨f, ks, h4, h5, fun evs d c hc => ?_⟩
  obtain ⟨t, dg, io, write, r, key, sig, remote, kt, st, rt, g1, g2, g3, g4, g5, g6, g7, g8, g9, g10, g11, g12⟩ := c23_all_connections v ks h3 evs d c hc
  exact ⟨t, dg, io, remote, g1, ⟨write, r, key, sig, kt, st, rt, g2, g3, g4, g5, g6, g7, g8, g9, g10⟩, g11, g12⟩

/-- **C65**: with `--authorized-keys` and neither `--require-full-encryption` nor `--error-to-authorized-only` both are on: a datagram from anybody else than a client
with one of the keys is not answered, in any state, and each transfer goes back to an encrypted request. -/
theorem c65_authorized_default {S} {v : Srv S} {a : ServerArgs} {files : Bytes → Option Bytes} {signer : Bytes → AuthKey S} (h : StartedWith v a files signer)
    (path : Bytes) (hp : a.authorizedKeys = some path) (hr : a.requireFull = none) (he : a.errorToAuthorizedOnly = none) :
    ∃ f ks, files path = some f ∧ readAuthorizedKeys S.point f = some ks ∧
      (∀ s t d dg io, (v.step s (.main t d dg io)).2 ≠ [] → ∃ remote, SignedRequest v ks dg remote) ∧
      ∀ evs d c, (v.run ⟨[], 0⟩ evs).conn d = some c → ∃ t dg io b, SrvEv.main t d dg io ∈ evs ∧ SealedToServer v dg b := by
  obtain ⟨-, -, -, -, -, -, -, -, -, hf, ho, hk, -⟩ := started_with h
  rw [hp] at hk
  rw [hr, hp] at hf
  rw [hr, hp, he] at ho
  rcases optional_some hk with ⟨h1, -⟩ | ⟨x, ks, h1, h2, h3⟩
  · cases h1
  cases h1
  obtain ⟨f, h4, h5⟩ := Option.bind_eq_some_iff.mp h2
  refine ⟨f, ks, h4, h5, fun s t d dg io hout => ?_, fun evs d c hc => ?_⟩
  · obtain ⟨write, r, key, sig, remote, kt, st, rt, g2, g3, g4, g5, g6, g7, g8, g9, g10⟩ := c41_only_authorized v ho ks h3 s t d dg io hout
    exact ⟨remote, write, r, key, sig, kt, st, rt, g2, g3, g4, g5, g6, g7, g8, g9, g10⟩
  · obtain ⟨⟨t, dg, io, b, r, g1, g2, -⟩, -⟩ := c24_required_full_partial v hf evs d c hc
    exact ⟨t, dg, io, b, g1, g2⟩

/-- **C65**: `--require-full-encryption` alone: every transfer goes back to a request encrypted to the server's key and is encrypted; the server answers no refused request. -/
theorem c65_require_full {S} {v : Srv S} {a : ServerArgs} {files : Bytes → Option Bytes} {signer : Bytes → AuthKey S} (h : StartedWith v a files signer)
    (hr : a.requireFull = some true) :
    (∀ evs d c, (v.run ⟨[], 0⟩ evs).conn d = some c → (∃ t dg io b, SrvEv.main t d dg io ∈ evs ∧ SealedToServer v dg b) ∧ c.enc.isSome) ∧
    (a.errorToAuthorizedOnly = none → ∀ t dg io, (v.newConn t dg io).result = .error .notRequest ∨ (v.newConn t dg io).result = .error .options →
      (v.newConn t dg io).replies = []) := by
  obtain ⟨-, -, -, -, -, -, -, -, -, hf, ho, -⟩ := started_with h
  rw [hr] at hf
  refine ⟨fun evs d c hc => ?_, fun he t dg io hx => ?_⟩
  · obtain ⟨⟨t, dg, io, b, r, g1, g2, -⟩, g3, -⟩ := c24_required_full_partial v hf evs d c hc
    exact ⟨⟨t, dg, io, b, g1, g2⟩, g3⟩
  · rw [hr, he] at ho
    rcases hx with hx | hx
    · exact c41_silent v ho t dg io _ hx (by simp) (by simp)
    · exact c41_silent v ho t dg io _ hx (by simp) (by simp)

/-- **C65**, finding: with `--authorized-keys` (or `--require-full-encryption`) but no `--private-key` the server starts, but serves nobody: no request is ever accepted. -/
theorem c65_no_private_key {S} {v : Srv S} {a : ServerArgs} {files : Bytes → Option Bytes} {signer : Bytes → AuthKey S} (h : StartedWith v a files signer)
    (hp : a.privateKey = none) (hr : a.requireFull = some true ∨ a.requireFull = none ∧ a.authorizedKeys.isSome) :
    (∀ evs d, (v.run ⟨[], 0⟩ evs).conn d = none) ∧ (a.errorToAuthorizedOnly = none → ∀ s t d dg io, (v.step s (.main t d dg io)).2 = []) := by
  obtain ⟨-, -, -, -, -, -, -, -, -, hf, ho, -, priv, h1, h2⟩ := started_with h
  rw [hp] at h1
  simp only [optional, Option.some.injEq] at h1
  subst h1
  have hfull : a.requireFull.getD a.authorizedKeys.isSome = true := by
    rcases hr with hr | ⟨hr, hk⟩
    · rw [hr]; rfl
    · rw [hr]; exact hk
  rw [hfull] at hf
  have harr : ∀ dg, v.arrived dg = .none := by
    intro dg
    have : v.openRequest dg = (none, dg) := by unfold Srv.openRequest; rw [h2]; rfl
    unfold Srv.arrived
    rw [this]
    rfl
  have hno : ∀ dg r sp used o keys, srvParse v.cfg sp r { Opts.default with level := v.arrived dg } ≠ .ok (used, o, keys) := by
    intro dg r sp used o keys hs
    obtain ⟨u1, o1, cl, -, -, hl, -⟩ := srvParse_ok hs
    have := hl hf
    rw [harr dg] at this
    cases this
  have hres : ∀ t dg io, (v.newConn t dg io).result = .error .notRequest ∨ (v.newConn t dg io).result = .error .options := by
    intro t dg io
    cases hx : (v.newConn t dg io).result with
    | ok c =>
      obtain ⟨c, out⟩ := c
      obtain ⟨write, r, used, keys, name, kind, g1, g2, -⟩ := newConn_ok hx
      obtain ⟨u0, o0, hs, -⟩ := srvNegotiate_ok g2
      exact absurd hs (hno dg _ _ _ _ _)
    | error x =>
      rcases newConn_refused hx with rfl | rfl | ⟨write, r, used, o, keys, g1, g2⟩
      · exact .inl rfl
      · exact .inr rfl
      · exact absurd g2 (hno dg _ _ _ _ _)
  refine ⟨fun evs d => ?_, fun he s t d dg io => ?_⟩
  · cases hc : (v.run ⟨[], 0⟩ evs).conn d with
    | none => rfl
    | some c =>
      obtain ⟨t, dg, io, c0, out, -, hx, -⟩ := connection_origin v evs d c hc
      rcases hres t dg io with hy | hy <;> rw [hy] at hx <;> cases hx
  · rw [hfull, he] at ho
    simp only [Srv.step]
    split
    · rfl
    · split
      · rfl
      · rcases hres t dg io with hy | hy <;> simp only [hy]
        · rw [c41_silent v ho t dg io _ hy (by simp) (by simp)]; rfl
        · rw [c41_silent v ho t dg io _ hy (by simp) (by simp)]; rfl

/-- **C65**: a server starts exactly if the numbers are in range and the files of the keys can be read and hold keys. -/
theorem c65_starts_iff {S} (a : ServerArgs) (files : Bytes → Option Bytes) (signer : Bytes → AuthKey S) :
    (a.config files signer).isSome = true ↔ a.accepted = true ∧
      (∀ p, a.authorizedKeys = some p → ∃ f ks, files p = some f ∧ readAuthorizedKeys S.point f = some ks) ∧
      (∀ p, a.privateKey = some p → ∃ k, decodeKey 32 p = some k ∨ decodeKey 32 p = none ∧ ∃ f l, files p = some f ∧ firstLine f = some l ∧ decodeKey 32 l = some k) := by
  have hpriv : ∀ p, (privateOption files p).isSome = true ↔
      ∃ k, decodeKey 32 p = some k ∨ decodeKey 32 p = none ∧ ∃ f l, files p = some f ∧ firstLine f = some l ∧ decodeKey 32 l = some k := by
    intro p
    unfold privateOption readPrivate
    cases hd : decodeKey 32 p with
    | some k => simp
    | none =>
      simp only [Option.isSome_iff_exists, Option.bind_eq_some_iff]
      constructor
      · rintro ⟨k, l, ⟨f, h1, h2⟩, h3⟩
        exact ⟨k, .inr ⟨trivial, f, l, h1, h2, h3⟩⟩
      · rintro ⟨k, h | ⟨-, f, l, h1, h2, h3⟩⟩
        · cases h
        · exact ⟨k, l, ⟨f, h1, h2⟩, h3⟩
  have hkeys : ∀ p, ((files p).bind (readAuthorizedKeys S.point)).isSome = true ↔ ∃ f ks, files p = some f ∧ readAuthorizedKeys S.point f = some ks := by
    intro p
    simp only [Option.isSome_iff_exists, Option.bind_eq_some_iff]
    constructor
    · rintro ⟨k, f, h1, h2⟩; exact ⟨f, k, h1, h2⟩
    · rintro ⟨f, k, h1, h2⟩; exact ⟨k, f, h1, h2⟩
  have hopt : ∀ {α β} (f : α → Option β) (x : Option α), (optional f x).isSome = true ↔ ∀ p, x = some p → (f p).isSome = true := by
    intro α β f x
    cases x with
    | none => simp [optional]
    | some p => simp [optional]
  unfold ServerArgs.config
  cases ha : a.accepted with
  | false => simp
  | true =>
    simp only [if_true, true_and]
    have h1 := hopt (fun p => (files p).bind (readAuthorizedKeys S.point)) a.authorizedKeys
    have h2 := hopt (privateOption files) a.privateKey
    simp only [hkeys] at h1
    simp only [hpriv] at h2
    rw [← h1, ← h2]
    cases optional (fun p => (files p).bind (readAuthorizedKeys S.point)) a.authorizedKeys <;>
      cases optional (privateOption files) a.privateKey <;> simp

/-- **C65**, finding: a private key file which is empty, or starts with an empty line, is accepted as the key of zeros: everybody knows that key. -/
theorem c65_empty_key_file (files : Bytes → Option Bytes) (name rest : Bytes) (hn : decodeKey 32 name = none) (hf : files name = some [] ∨ files name = some (10 :: rest)) :
    privateOption files name = some zeroKey := by
  have h0 : firstLine [] = some [] := by
    have : utf8Valid ([] : Bytes) = true := rfl
    have h2 : trimBack [] = [] := by rw [trimBack]; rfl
    simp [firstLine, this, h2]
  have h1 : firstLine (10 :: rest) = some [] := by
    have : (10 :: rest).takeWhile (· ≠ 10) = ([] : Bytes) := by simp
    unfold firstLine
    rw [this]
    exact h0
  have hz : decodeKey 32 [] = some zeroKey := by decide
  unfold privateOption readPrivate
  rw [hn]
  rcases hf with hf | hf <;> rw [hf] <;> simp [h0, h1, hz]

/-! ### Client -/

/-- std-binary/src/cli.rs:27-99 `ClientCliConfig`. -/
structure ClientArgs where
  endpoint : Bytes
  listen : Option Bytes
  requestTimeout : Nat
  blockSize : Nat
  window : Nat
  retry : Nat
  maxFileSize : Nat
  level : Bytes
  privateKey : Option Bytes
  serverKey : Option Bytes
  knownHosts : Option Bytes
  allowPortChange : Bool
  encryptionKey : Option Bytes
  preferSeek : Bool

/-- std-binary/src/cli.rs:27-99: a client started with the address of the server only. -/
def ClientArgs.default (e : Bytes) : ClientArgs := ⟨e, none, 15000, 1425, 8, 80, 10485760, ascii "optional-protocol", none, none, none, false, none, false⟩

/-- std-binary/src/cli.rs:42-54: the command line parser refuses other numbers. -/
def ClientArgs.accepted (a : ClientArgs) : Bool :=
  decide (512 ≤ a.blockSize ∧ a.blockSize ≤ 1425) && decide (1 ≤ a.window ∧ a.window ≤ 1000) && decide (80 ≤ a.retry ∧ a.retry < 255000) &&
  decide (a.requestTimeout < 2 ^ 64) && decide (a.maxFileSize < 2 ^ 64)

/-- What is before and after the last colon. -/
def lastColon (s : Bytes) : Option (Bytes × Bytes) :=
  match s.reverse.dropWhile (· ≠ 58) with
  | _ :: host => some (host.reverse, (s.reverse.takeWhile (· ≠ 58)).reverse)
  | [] => none

/-- std `ToSocketAddrs for str`: the text has to end with a colon and a port. `lookup`: the resolver of the operating system, together with the parser of
addresses in numbers. -/
def toSocketAddrs (lookup : Bytes → Nat → List Ep) (s : Bytes) : Option (List Ep) :=
  match lastColon s with
  | none => none
  | some (host, port) => (parseUInt 65535 port).map (lookup host)

/-- What `start_send` and `start_receive` hand to the library. -/
structure ClientSetup (S : SigScheme) where
  cfg : CliCfg S
  opts : Opts
  encryptionKey : Option Bytes

/-- std-binary/src/config.rs:22-34: the server's key, if the client knows it. -/
def ClientArgs.remoteKey (point : Bytes → Bool) (a : ClientArgs) (files : Bytes → Option Bytes) : Option (Option Bytes) :=
  match a.serverKey, a.knownHosts with
  | none, none => some none
  | _, p => configuredKey point (p.bind files) ⟨a.endpoint, a.serverKey, none⟩

/-- std-binary/src/sender.rs:27-75, std-binary/src/receiver.rs:23-71 and std-binary/src/config.rs:22-87 `ClientCliConfig::try_into`. `none`: an error, nothing was
sent. (The socket can be made; `privateKey` and `encryptionKey` are keys or file names.) -/
def ClientArgs.config {S} (a : ClientArgs) (write : Bool) (files : Bytes → Option Bytes) (signer : Bytes → AuthKey S) (lookup : Bytes → Nat → List Ep) :
    Option (ClientSetup S) :=
  if a.accepted then do
    let listen ← toSocketAddrs lookup (a.listen.getD a.endpoint)
    let _ ← listen.head?
    let level ← Level.parse a.level
    let remoteKey ← a.remoteKey S.point files
    let privateKey ← optional (privateOption files) a.privateKey
    let addrs ← toSocketAddrs lookup (resolvedName a.endpoint)
    let endpoint ← addrs.head?
    let encryptionKey ← optional (privateOption files) a.encryptionKey
    pure
      { cfg := ⟨endpoint, a.requestTimeout, a.maxFileSize, privateKey.map signer, remoteKey, a.allowPortChange, a.preferSeek⟩
        opts := ⟨asU16 a.blockSize, a.retry, if write then none else some 0, level, asU16 a.window⟩
        encryptionKey := encryptionKey }
  else none

/-- **C66**: a client which starts uses the numbers given, and the encryption level given. -/
theorem c66_values {S} {a : ClientArgs} {write : Bool} {files : Bytes → Option Bytes} {signer : Bytes → AuthKey S} {lookup : Bytes → Nat → List Ep} {c : ClientSetup S}
    (h : a.config write files signer lookup = some c) :
    (512 ≤ a.blockSize ∧ a.blockSize ≤ 1425) ∧ (1 ≤ a.window ∧ a.window ≤ 1000) ∧ (80 ≤ a.retry ∧ a.retry < 255000) ∧
    c.opts.blockSize = a.blockSize ∧ c.opts.window = a.window ∧ c.opts.retry = a.retry ∧ c.opts.level.text = a.level ∧
    c.opts.fileSize = (if write then none else some 0) ∧ c.cfg.requestTimeout = a.requestTimeout ∧ c.cfg.maxFileSize = a.maxFileSize ∧
    c.cfg.allowPortChange = a.allowPortChange ∧ c.cfg.preferSeek = a.preferSeek ∧
    (a.encryptionKey = none → c.encryptionKey = none) ∧ (∀ x, a.encryptionKey = some x → ∃ k, privateOption files x = some k ∧ c.encryptionKey = some k) := by
  unfold ClientArgs.config at h
  split at h
  · rename_i ha
    simp only [ClientArgs.accepted, Bool.and_eq_true, decide_eq_true_eq] at ha
    obtain ⟨⟨⟨⟨h1, h2⟩, h3⟩, h4⟩, h5⟩ := ha
    simp only [Option.bind_eq_bind, Option.bind_eq_some_iff, Option.pure_def] at h
    obtain ⟨ls, -, le, -, h⟩ := h
    obtain ⟨level, hl, rk, hrk, pk, hpk, addrs, haddr, ep, hep, ek, hek, h⟩ := h
    simp only [Option.some.injEq] at h
    subst h
    refine ⟨h1, h2, h3, ?_, ?_, rfl, ((c44_level_text _ _).mp hl).symm, rfl, rfl, rfl, rfl, rfl, ?_, ?_⟩
    · show asU16 _ = _; unfold asU16; omega
    · show asU16 _ = _; unfold asU16; omega
    · intro he
      rw [he] at hek
      simp only [optional, Option.some.injEq] at hek
      exact hek.symm
    · intro x he
      rw [he] at hek
      rcases optional_some hek with ⟨g, -⟩ | ⟨x', b, g1, g2, g3⟩
      · cases g
      · cases g1; exact ⟨b, g2, g3⟩
  · cases h

/-- The server key a client starts with. -/
theorem config_remoteKey {S} {a : ClientArgs} {write : Bool} {files : Bytes → Option Bytes} {signer : Bytes → AuthKey S} {lookup : Bytes → Nat → List Ep} {c : ClientSetup S}
    (h : a.config write files signer lookup = some c) :
    (a.serverKey = none ∧ a.knownHosts = none ∧ c.cfg.remoteKey = none) ∨
    configuredKey S.point (a.knownHosts.bind files) ⟨a.endpoint, a.serverKey, none⟩ = some c.cfg.remoteKey := by
  unfold ClientArgs.config at h
  split at h
  · simp only [Option.bind_eq_bind, Option.bind_eq_some_iff, Option.pure_def] at h
    obtain ⟨ls, -, le, -, h⟩ := h
    obtain ⟨level, hl, rk, hrk, pk, hpk, addrs, haddr, ep, hep, ek, hek, h⟩ := h
    simp only [Option.some.injEq] at h
    subst h
    unfold ClientArgs.remoteKey at hrk
    split at hrk
    · rename_i h1 h2; cases hrk; exact .inl ⟨h1, h2, rfl⟩
    · exact .inr hrk
  · cases h

/-- **C66**: with `--server-public-key` and one of the levels data, protocol and full, the client either does not start or never sends file data in the clear,
whatever the server and the network do. -/
theorem c66_given_key_encrypts {S} {a : ClientArgs} {files : Bytes → Option Bytes} {signer : Bytes → AuthKey S} {lookup : Bytes → Nat → List Ep} {c : ClientSetup S}
    {j : Job} (h : a.config j.write files signer lookup = some c) (key : Bytes) (hk : a.serverKey = some key)
    (hl : a.level = ascii "data" ∨ a.level = ascii "protocol" ∨ a.level = ascii "full") (v : Cli S) (hv : v.cfg = c.cfg) (ho : j.opts.level = c.opts.level)
    (t : Nat) (is : List CliIn) : ∀ x ∈ (v.run j t is).2, Covered v x.2 := by
  obtain ⟨-, -, -, -, -, -, htext, -⟩ := c66_values h
  rcases config_remoteKey h with ⟨h1, -⟩ | h1
  · rw [hk] at h1; cases h1
  · unfold configuredKey at h1
    simp only [hk, Option.map_eq_some_iff] at h1
    obtain ⟨k, -, h2⟩ := h1
    refine c25_known_key_partial v j k (by rw [hv, ← h2]) ?_ t is
    rw [ho]
    unfold Mandatory
    rcases hl with hl | hl | hl <;> rw [hl] at htext <;> revert htext <;> cases c.opts.level <;> decide

/-- **C66**: the same with a known hosts file which has a key for the endpoint; if the file can not be read or the key of the endpoint is broken the client does not start. -/
theorem c66_known_host_encrypts {S} {a : ClientArgs} {files : Bytes → Option Bytes} {signer : Bytes → AuthKey S} {lookup : Bytes → Nat → List Ep} {c : ClientSetup S}
    {j : Job} (h : a.config j.write files signer lookup = some c) (path : Bytes) (hk : a.serverKey = none) (hp : a.knownHosts = some path)
    (hl : a.level = ascii "data" ∨ a.level = ascii "protocol" ∨ a.level = ascii "full") (v : Cli S) (hv : v.cfg = c.cfg) (ho : j.opts.level = c.opts.level) :
    ∃ f, files path = some f ∧ getKnownHost S.point f a.endpoint ≠ .error ∧
      (getKnownHost S.point f a.endpoint ≠ .absent → ∀ t is, ∀ x ∈ (v.run j t is).2, Covered v x.2) := by
  obtain ⟨-, -, -, -, -, -, htext, -⟩ := c66_values h
  rcases config_remoteKey h with ⟨-, h1, -⟩ | h1
  · rw [hp] at h1; cases h1
  · unfold configuredKey at h1
    simp only [hk, hp, Option.bind_some] at h1
    cases hf : files path with
    | none => rw [hf] at h1; cases h1
    | some f =>
      simp only [hf] at h1
      refine ⟨f, rfl, ?_, ?_⟩
      · intro he; rw [he] at h1; cases h1
      · intro hne t is
        cases hg : getKnownHost S.point f a.endpoint with
        | absent => exact absurd hg hne
        | error => rw [hg] at h1; cases h1
        | found k =>
          simp only [hg, Option.some.injEq] at h1
          refine c25_known_key_partial v j k (by rw [hv, ← h1]) ?_ t is
          rw [ho]
          unfold Mandatory
          rcases hl with hl | hl | hl <;> rw [hl] at htext <;> revert htext <;> cases c.opts.level <;> decide

/-- **C66**: a text which is no encryption level stops the client; it is never taken for "none". -/
theorem c66_unknown_level {S} (a : ClientArgs) (write : Bool) (files : Bytes → Option Bytes) (signer : Bytes → AuthKey S) (lookup : Bytes → Nat → List Ep)
    (h : ∀ l : Level, a.level ≠ l.text) : a.config write files signer lookup = none := by
  cases hc : a.config write files signer lookup with
  | none => rfl
  | some c =>
    obtain ⟨-, -, -, -, -, -, ht, -⟩ := c66_values hc
    exact absurd ht.symm (h _)

theorem lastColon_none {s : Bytes} (h : (58 : UInt8) ∉ s) : lastColon s = none := by
  unfold lastColon
  have key : ∀ l : Bytes, (58 : UInt8) ∉ l → l.dropWhile (· ≠ 58) = [] := by
    intro l
    induction l with
    | nil => intro _; rfl
    | cons c l ih =>
      intro hl
      simp only [List.mem_cons, not_or] at hl
      rw [List.dropWhile_cons_of_pos (by simpa using Ne.symm hl.1)]
      exact ih hl.2
  rw [key _ (by simpa using h)]

theorem lastColon_host (host port : Bytes) (h : (58 : UInt8) ∉ port) : lastColon (host ++ 58 :: port) = some (host, port) := by
  have key : ∀ l r : Bytes, (58 : UInt8) ∉ l → (l ++ 58 :: r).dropWhile (· ≠ 58) = 58 :: r ∧ (l ++ 58 :: r).takeWhile (· ≠ 58) = l := by
    intro l r
    induction l with
    | nil => intro _; exact ⟨by simp, by simp⟩
    | cons c l ih =>
      intro hl
      simp only [List.mem_cons, not_or] at hl
      obtain ⟨h1, h2⟩ := ih hl.2
      rw [List.cons_append, List.dropWhile_cons_of_pos (by simpa using Ne.symm hl.1), List.takeWhile_cons_of_pos (by simpa using Ne.symm hl.1), h1, h2]
      exact ⟨rfl, rfl⟩
  obtain ⟨h1, h2⟩ := key port.reverse host.reverse (by simpa using h)
  have hr : (host ++ 58 :: port).reverse = port.reverse ++ 58 :: host.reverse := by simp
  unfold lastColon
  rw [hr, h1, h2]
  simp

/-- **C66**: the requests go to the host and port given; with `--listen`, to port 69 if no port is given. -/
theorem c66_endpoint {S} {a : ClientArgs} {write : Bool} {files : Bytes → Option Bytes} {signer : Bytes → AuthKey S} {lookup : Bytes → Nat → List Ep} {c : ClientSetup S}
    (h : a.config write files signer lookup = some c) :
    (∀ host port, port < 65536 → a.endpoint = host ++ 58 :: decimal port → (lookup host port).head? = some c.cfg.endpoint) ∧
    ((58 : UInt8) ∉ a.endpoint → (lookup a.endpoint 69).head? = some c.cfg.endpoint) := by
  have hd : ∀ n, (58 : UInt8) ∉ decimal n := fun n hn => by
    have := (decimal_digits n _ hn).2
    simp at this
  have hp : ∀ host port, port < 65536 → toSocketAddrs lookup (host ++ 58 :: decimal port) = some (lookup host port) := by
    intro host port hlt
    unfold toSocketAddrs
    rw [lastColon_host host _ (hd port)]
    simp only [parse_decimal 65535 port (by omega), Option.map_some]
  unfold ClientArgs.config at h
  split at h
  · simp only [Option.bind_eq_bind, Option.bind_eq_some_iff, Option.pure_def] at h
    obtain ⟨ls, -, le, -, level, hl, rk, hrk, pk, hpk, addrs, haddr, ep, hep, ek, hek, h⟩ := h
    simp only [Option.some.injEq] at h
    subst h
    refine ⟨fun host port hlt he => ?_, fun hn => ?_⟩
    · rw [he] at haddr
      have : resolvedName (host ++ 58 :: decimal port) = host ++ 58 :: decimal port := by simp [resolvedName]
      rw [this, hp host port hlt] at haddr
      cases haddr
      exact hep
    · have : resolvedName a.endpoint = a.endpoint ++ 58 :: decimal 69 := by
        have h69 : decimal 69 = [54, 57] := by decide +kernel
        rw [resolvedName, if_neg hn, h69]
      rw [this, hp _ 69 (by omega)] at haddr
      cases haddr
      exact hep
  · cases h

/-- **C66**, finding: the documented default port is never used unless `--listen` is given: without it, a client whose endpoint has no port does not start (the
address to listen on is derived from the endpoint's text before the port is added). -/
theorem c66_no_default_port {S} (a : ClientArgs) (write : Bool) (files : Bytes → Option Bytes) (signer : Bytes → AuthKey S) (lookup : Bytes → Nat → List Ep)
    (h : (58 : UInt8) ∉ a.endpoint) (hl : a.listen = none) : a.config write files signer lookup = none := by
  unfold ClientArgs.config
  split
  · rw [hl]
    simp only [Option.getD_none, toSocketAddrs, lastColon_none h]
    rfl
  · rfl

/-- **C66**, finding: an encryption key of 32 characters, as the help text asks for, has at most 24 bytes: the last 8 bytes of the key used are zero. -/
theorem c66_short_encryption_key {S} {a : ClientArgs} {write : Bool} {files : Bytes → Option Bytes} {signer : Bytes → AuthKey S} {lookup : Bytes → Nat → List Ep} {c : ClientSetup S}
    (h : a.config write files signer lookup = some c) (t : Bytes) (ht : a.encryptionKey = some t) (hl : t.length = 32) (hf : files t = none) :
    ∃ k, c.encryptionKey = some k ∧ k.length = 32 ∧ k.drop 24 = List.replicate 8 0 := by
  obtain ⟨-, -, -, -, -, -, -, -, -, -, -, -, -, hk⟩ := c66_values h
  obtain ⟨k, h1, h2⟩ := hk t ht
  refine ⟨k, h2, ?_⟩
  unfold privateOption readPrivate at h1
  rw [hf] at h1
  cases hd : decodeKey 32 t with
  | none => rw [hd] at h1; cases h1
  | some k' =>
    simp only [hd, Option.some.injEq] at h1
    subst h1
    obtain ⟨x, rfl, -, -, rfl⟩ := (c33_accepted_texts_partial _ _).mp hd
    have hx : x.length ≤ 24 := by
      have := b64encode_length x
      omega
    unfold zeroExtend
    refine ⟨by simp, ?_⟩
    apply List.ext_getElem?
    intro i
    simp only [List.getElem?_drop, List.getElem?_take, List.getElem?_append, List.getElem?_replicate]
    by_cases hi : i < 8
    · rw [if_pos (by omega), if_neg (by omega), if_pos (by omega), if_pos hi]
    · rw [if_neg (by omega), if_neg hi]

/-! ### Both -/

/-- **C65**, **C66**: the command line keeps all numbers within the ranges in which whole transfers are correct (C52, C53): only the assumptions about keys, texts,
the file and the network remain. -/
theorem c66_honest {S} {v : Parties S} {a : ServerArgs} {files : Bytes → Option Bytes} {signer : Bytes → AuthKey S} (hs : StartedWith v.srv a files signer)
    {b : ClientArgs} {files' : Bytes → Option Bytes} {signer' : Bytes → AuthKey S} {lookup : Bytes → Nat → List Ep}
    (hc : b.config v.job.write files' signer' lookup = some ⟨v.cli.cfg, v.job.opts, none⟩)
    (h1 : v.cli.sessionPub.length = 32) (h2 : v.cli.handshakePub.length = 32) (h3 : Text v.job.name)
    (h4 : ∀ k, v.cli.cfg.remoteKey = some k → (∃ x, v.srv.cfg.privateKey = some x ∧ x.pub = k) ∧ v.cli.handshake k = v.srv.handshake v.cli.handshakePub)
    (h5 : ∀ e, (e = Exts.empty ∨ e = createExtensions (v.cli.requestOpts v.job) (⟨v.cli.sessionPub, v.cli.cfg.privateKey⟩ : InitialKeys S)) →
      v.srv.openRequest (v.job.request e).toBytes = (none, (v.job.request e).toBytes))
    (h6 : ∀ n file, v.job.task = .upload n file → ∀ k, n = some k → k < 2 ^ 64) (late : Nat) (h7 : late ≤ 4200000) : Honest v (some late) := by
  obtain ⟨-, g2, g3, -, g5, g6, -⟩ := started_with hs
  obtain ⟨k1, k2, k3, k4, k5, k6, -, k8, -⟩ := c66_values hc
  simp only at k4 k5 k6 k8
  refine ⟨by omega, by omega, h1, h2, h3, by omega, by omega, by omega, ?_, h4, h5, ?_, ?_⟩
  · intro n hn
    rw [k8] at hn
    split at hn
    · cases hn
    · cases hn; decide
  · cases hj : v.job.task with
    | upload n file => exact ⟨h6 n file hj, fun h => by cases h⟩
    | download ok =>
      right
      rw [k8]
      simp [Job.write, hj]
  · intro l hl
    cases hl
    have : late / 471 ≤ 4200000 / 471 := Nat.div_le_div_right h7
    omega

end Tftp

import Verif.Options
import Verif.ToyEnd
/-
C65, C66: concrete cases.
-/
namespace Tftp
namespace Toy
open Spec

/-- The file `keys.txt` has one key, `empty.txt` is empty. -/
def disk (p : Bytes) : Option Bytes :=
  if p = ascii "keys.txt" then some ((KeyLine.key (List.replicate 32 1)).text ++ [10])
  else if p = ascii "empty.txt" then some []
  else none

def signerOf (_ : Bytes) : AuthKey sig := key

/-- `server --authorized-keys keys.txt --private-key <text>`. -/
def serverArgs : ServerArgs := { ServerArgs.default with authorizedKeys := some (ascii "keys.txt"), privateKey := some (encodeKey (List.replicate 32 9)) }

def optSrv : Srv sig := ⟨⟨1425, 1000, 15000, 104857600, true, some [List.replicate 32 1], some key, true⟩, 5000, false, fun _ => aead, fun _ => aead,
  fun _ => List.replicate 24 0, by simp⟩

theorem keys_read : ((disk (ascii "keys.txt")).bind (readAuthorizedKeys sig.point)) = some [List.replicate 32 1] := by
  have h := c35_keys_in_order sig.point [KeyLine.key (List.replicate 32 1)] (by simp [KeyLine.ok, sig])
  have : List.filterMap KeyLine.key? [KeyLine.key (List.replicate 32 1)] = [List.replicate 32 1] := rfl
  rw [this] at h
  simpa [disk] using h

theorem private_read : privateOption disk (encodeKey (List.replicate 32 9)) = some (List.replicate 32 9) := by
  unfold privateOption readPrivate
  rw [c33_round_trip.1 _ (by simp)]

/-- The server of C65 has started with these options. -/
theorem optSrv_started : StartedWith optSrv serverArgs disk signerOf := by
  have ha : serverArgs.accepted = true := by decide
  have h1 : optional (fun p => (disk p).bind (readAuthorizedKeys sig.point)) serverArgs.authorizedKeys = some (some [List.replicate 32 1]) := by
    show ((disk (ascii "keys.txt")).bind (readAuthorizedKeys sig.point)).map some = _
    rw [keys_read]
    rfl
  have h2 : optional (privateOption disk) serverArgs.privateKey = some (some (List.replicate 32 9)) := by
    show (privateOption disk (encodeKey (List.replicate 32 9))).map some = _
    rw [private_read]
    rfl
  unfold StartedWith ServerArgs.config
  simp only [ha, h1, h2, if_true]
  rfl

/-- A read request for "a", encrypted to the server, with the listed key. -/
def signedRequest : Packet := .read ⟨[97], createExtensions ⟨512, 80, none, .full, 1⟩ cliKeys⟩

/-- The datagram. -/
def signedDatagram : Bytes := match sealInitial aead (List.replicate 24 0) (List.replicate 32 6) signedRequest.toBytes 1429 with
  | .ok d => d
  | _ => []

/-- C65: the server accepts it: a transfer of a server started with a list of keys. -/
theorem signed_accepted : ((optSrv.run ⟨[], 0⟩ [.main 0 1 signedDatagram io]).conn 1).isSome = true ∧
    (optSrv.step ⟨[], 0⟩ (.main 0 1 signedDatagram io)).2 ≠ [] := by
  decide +kernel

/-- The same request in the clear is not answered. -/
example : (optSrv.run ⟨[], 0⟩ [.main 0 1 signedRequest.toBytes io]).conn 1 = none ∧ (optSrv.step ⟨[], 0⟩ (.main 0 1 signedRequest.toBytes io)).2 = [] := by
  refine ⟨?_, by decide +kernel⟩
  have : ((optSrv.run ⟨[], 0⟩ [.main 0 1 signedRequest.toBytes io]).conn 1).isSome = false := by decide +kernel
  simpa using this

/-- C65: a server without private key. -/
def muteSrv : Srv sig := { optSrv with cfg := { optSrv.cfg with privateKey := none } }

example : StartedWith muteSrv { serverArgs with privateKey := none } disk signerOf ∧ (muteSrv.step ⟨[], 0⟩ (.main 0 1 signedDatagram io)).2 = [] := by
  have h : StartedWith muteSrv { serverArgs with privateKey := none } disk signerOf := by
    have ha : ({ serverArgs with privateKey := none } : ServerArgs).accepted = true := by decide
    have h1 : optional (fun p => (disk p).bind (readAuthorizedKeys sig.point)) ({ serverArgs with privateKey := none } : ServerArgs).authorizedKeys = some (some [List.replicate 32 1]) := by
      show ((disk (ascii "keys.txt")).bind (readAuthorizedKeys sig.point)).map some = _
      rw [keys_read]
      rfl
    unfold StartedWith ServerArgs.config
    simp only [ha, h1, if_true]
    rfl
  exact ⟨h, (c65_no_private_key h rfl (.inr ⟨rfl, rfl⟩)).2 rfl ..⟩

/-- C65: `--require-full-encryption` alone. -/
example : ∃ v : Srv sig, StartedWith v { ServerArgs.default with requireFull := some true } disk signerOf ∧ v.cfg.errorToAuthorizedOnly = true :=
  ⟨{ optSrv with cfg := ⟨1425, 1000, 15000, 104857600, true, none, none, true⟩ }, rfl, rfl⟩

/-- C65: numbers out of range, and a missing file. -/
example : (({ ServerArgs.default with maxBlock := 65536 + 512 } : ServerArgs).config disk signerOf).isSome = false ∧
    (({ ServerArgs.default with authorizedKeys := some (ascii "nothing") } : ServerArgs).config disk signerOf).isSome = false := ⟨by decide +kernel, by decide +kernel⟩

/-- C65: the empty key file. -/
example : privateOption disk (ascii "empty.txt") = some zeroKey := c65_empty_key_file disk _ [] (by decide +kernel) (.inl rfl)

/-- The resolver knows one host. -/
def hosts (h : Bytes) (port : Nat) : List Ep := if h = ascii "srv" ∨ h = ascii "0.0.0.0" then [⟨1, port⟩] else []

def clientArgs : ClientArgs := { ClientArgs.default (ascii "srv:69") with
  level := ascii "protocol", serverKey := some (encodeKey (List.replicate 32 1)), encryptionKey := some (ascii "0123456789abcdef0123456789abcdef") }

/-- C66: a client with the server's key, level protocol and a file encryption key of 32 characters. -/
example : ∃ c : ClientSetup sig, clientArgs.config true disk signerOf hosts = some c ∧ c.opts = ⟨1425, 80, none, .protocol, 8⟩ ∧
    c.cfg.endpoint = ⟨1, 69⟩ ∧ c.cfg.remoteKey = some (List.replicate 32 1) ∧ c.encryptionKey.map (·.drop 24) = some (List.replicate 8 0) := by
  have h : (clientArgs.config true disk signerOf hosts).map (fun c => (c.opts, c.cfg.endpoint, c.cfg.remoteKey, c.encryptionKey.map (·.drop 24))) =
      some (⟨1425, 80, none, .protocol, 8⟩, ⟨1, 69⟩, some (List.replicate 32 1), some (List.replicate 8 0)) := by decide +kernel
  obtain ⟨c, h1, h2⟩ := Option.map_eq_some_iff.mp h
  simp only [Prod.mk.injEq] at h2
  exact ⟨c, h1, h2⟩

/-- C66: "srv" without a port: refused by default, port 69 with `--listen`. -/
example : ((ClientArgs.default (ascii "srv")).config true disk signerOf hosts).isSome = false ∧
    (({ ClientArgs.default (ascii "srv") with listen := some (ascii "0.0.0.0:0") } : ClientArgs).config true disk signerOf hosts).map (·.cfg.endpoint.port) = some 69 :=
  ⟨by decide +kernel, by decide +kernel⟩

/-- C66: the parties of a transfer, started from the command line with default options. -/
def optParties : Parties sig := ⟨{ boxSrv with cfg := ⟨1425, 1000, 15000, 104857600, false, none, none, false⟩, maxConn := 5000 },
  { boxCli with cfg := ⟨⟨1, 69⟩, 15000, 10485760, none, none, false, false⟩ }, ⟨.upload (some 600) content, [97], ⟨1425, 80, none, .optionalProtocol, 8⟩⟩, false⟩

example : Honest optParties (some 4200000) := by
  refine c66_honest (v := optParties) (a := ServerArgs.default) (files := disk) (signer := signerOf) rfl (b := ClientArgs.default (ascii "srv:69")) (files' := disk) (signer' := signerOf)
    (lookup := hosts) ?_ (by decide) (by decide) (show Spec.Text [97] from ⟨by decide, by decide⟩) (fun _ (h : none = some _) => by cases h) (fun _ _ => rfl) ?_ _ (Nat.le_refl _)
  · rfl
  · intro n file h k hk
    cases h
    cases hk
    decide

end Toy
end Tftp

import Verif.ClientSecure
import Verif.ClientRetry
import Verif.ClientForeign
import Verif.Toy
/-
A small client for examples (the signature scheme and the cipher of `Toy`), to show that the hypotheses of the theorems about the
client can be met, and for witnesses of findings. Nothing here models code.
-/
namespace Tftp
namespace Toy

set_option maxRecDepth 8000

def here : Ep := ⟨1, 69⟩

/-- A cipher which changes every byte. -/
def flip : Aead where
  enc _ p := (p.map (255 - ·), List.replicate 16 0)
  dec _ c _ := some (c.map (255 - ·))
  enc_length _ _ := by simp
  tag_length _ _ := by simp
  dec_enc _ p := by
    have : ∀ x : UInt8, 255 - (255 - x) = x := by
      intro x
      have h := x.toNat_lt
      apply UInt8.toNat_inj.mp
      have h1 : x ≤ 255 := by rw [UInt8.le_iff_toNat_le]; show x.toNat ≤ 255; omega
      have h2 : 255 - x ≤ 255 := by rw [UInt8.le_iff_toNat_le]; show _ ≤ 255; have := (255 - x).toNat_lt; omega
      rw [UInt8.toNat_sub_of_le _ _ h2, UInt8.toNat_sub_of_le _ _ h1]
      show 255 - (255 - x.toNat) = x.toNat
      omega
    simp [List.map_map, Function.comp_def, this]

/-- A client; `k`: the server key it knows. -/
def cli (k : Option Bytes) : Cli sig where
  cfg := ⟨here, 1000, 1000000, none, k, false, false⟩
  sessionPub := List.replicate 32 5
  handshakePub := List.replicate 32 6
  handshake := fun _ => flip
  session := fun _ => flip
  nonce := fun _ => List.replicate 24 0
  nonce_length := by simp

/-- Send the file 7, 8, 9 as "a" with encryption level `l`. -/
def up (l : Level) : Job := ⟨.upload (some 3) [7, 8, 9], [97], ⟨512, 80, some 0, l, 1⟩⟩

/-- Fetch "a". -/
def down (l : Level) : Job := ⟨.download true, [97], ⟨512, 80, some 0, l, 1⟩⟩

def quiet (t : Nat) : CliIn := ⟨t, .wouldBlock, true, 0, 0, true, false, false, .sent, .all⟩

def hear (t : Nat) (p : Packet) : CliIn := { quiet t with recv := .dgram here p.toBytes }

def hears (t : Nat) (e : Ep) (b : Bytes) : CliIn := { quiet t with recv := .dgram e b }

/-- An option acknowledgement with the given level, a session key and the file size. -/
def oack (l : Level) : Packet :=
  .optionalAck ((Exts.empty.insert .encryptionLevel l.text).insert .sessionPublicKey (encodeKey (List.replicate 32 4)))

/-- The result of a successful transfer: size, and the file written. -/
def result : CliSt → Option (Nat × Bytes)
  | .done (.ok r) f => some (r.1, f)
  | _ => none

/-- The error with which a transfer ended. -/
def failure : CliSt → Option CliErr
  | .done (.error e) _ => some e
  | _ => none

def isDown : CliSt → Bool
  | .down .. => true
  | _ => false

def isQuery : CliSt → Bool
  | .query _ => true
  | _ => false

def isOack : Except PacketError Packet → Bool
  | .ok (.optionalAck _) => true
  | _ => false

theorem of_isOack {e} (h : isOack e = true) : ∃ se, e = .ok (.optionalAck se) := by
  unfold isOack at h
  split at h
  · exact ⟨_, rfl⟩
  · cases h

/-- An option acknowledgement with the file size 2. -/
def tsize : Packet := .optionalAck (Exts.empty.insert .transferSize [50])

/-- A reply of the server encrypted as a whole. -/
def sealed (t : Nat) (p : Packet) : CliIn :=
  match sealPacket flip (List.replicate 24 0) p.toBytes 516 with
  | .ok d => hears t here d
  | _ => quiet t

/-- C25: `c25_known_key_partial` covers complete encrypted uploads; the file (7, 8, 9) leaves as 248, 247, 246. -/
example : Spec.Mandatory (up .data).opts.level ∧
    ((cli (some (List.replicate 32 3))).run (up .data) 0 [hear 1 (oack .data), quiet 2, hear 3 (.ack 1)]).2.map (·.2.take 7) =
      [[0, 2, 97, 0, 111, 99, 116], [0, 4, 0, 0], [0, 3, 0, 1, 248, 247, 246], [0, 3, 0, 1, 248, 247, 246]] ∧
    result ((cli (some (List.replicate 32 3))).run (up .data) 0 [hear 1 (oack .data), quiet 2, hear 3 (.ack 1)]).1 =
      some (3, []) := by
  refine ⟨.inl rfl, ?_⟩
  decide +kernel

/-- C25: and at level `full`: request, acknowledgement of the options and data have the same length. -/
example : ((cli (some (List.replicate 32 3))).run (up .protocol) 0 [sealed 1 (oack .protocol), quiet 2, sealed 3 (.ack 1)]).2.map
      (·.2.length) = [516, 516, 516, 516] ∧
    result ((cli (some (List.replicate 32 3))).run (up .protocol) 0 [sealed 1 (oack .protocol), quiet 2, sealed 3 (.ack 1)]).1 =
      some (3, []) := by
  decide +kernel

/-- C25: `c25_oack_partial` applies to the reply `oack .protocol` and a client which does not know the server's key. -/
example : (cli none).cfg.remoteKey = none ∧
    (∃ se, Packet.fromBytes ((oack .protocol).toBytes.take ((cli none).start (up .protocol) 0).room) = .ok (.optionalAck se)) ∧
    ((cli none).run (up .protocol) 0 [hear 1 (oack .protocol), quiet 2, sealed 3 (.ack 1)]).2.map (·.2.length) = [87, 516, 516, 516] := by
  exact ⟨rfl, of_isOack (by decide +kernel), by decide +kernel⟩

/-- C25: a state to which `c25_only_decrypted_data_is_written` applies, and a step which writes. -/
example : SecureSt (cli none) ((cli none).run (down .data) 0 [hear 1 (oack .data)]).1 ∧
    isDown ((cli none).run (down .data) 0 [hear 1 (oack .data)]).1 = true ∧
    result ((cli none).run (down .data) 0 [hear 1 (oack .data),
      hears 2 here ([0, 3, 0, 1, 248, 247] ++ List.replicate 40 0)]).1 = some (2, [7, 8]) := by
  refine ⟨?_, by decide +kernel⟩
  obtain ⟨se, hse⟩ := of_isOack (e := Packet.fromBytes ((oack .data).toBytes.take ((cli none).start (down .data) 0).room)) (by decide +kernel)
  exact (oack_secure (cli none) (down .data) rfl (.inl rfl) _ (hear 1 (oack .data)) _ se rfl hse).1

/-- **C25**, finding: a user who asks for `full` without knowing the server's key is downgraded to plain text by a server which
answers with level `none` and a session key: src/client/extensions.rs:195-218 only refuses `none` for levels `data` and
`protocol`, and src/client/encryption_socket_builder.rs:66-79 then leaves the socket without encryption. The file 7, 8, 9 leaves
in the clear, and the upload succeeds. -/
theorem c25_full_without_key_downgrades :
    ((cli none).run (up .full) 0 [hear 1 (oack .none), quiet 2, hear 3 (.ack 1)]).2.map (·.2.take 7) =
      [[0, 2, 97, 0, 111, 99, 116], [0, 4, 0, 0], [0, 3, 0, 1, 7, 8, 9], [0, 3, 0, 1, 7, 8, 9]] ∧
    result ((cli none).run (up .full) 0 [hear 1 (oack .none), quiet 2, hear 3 (.ack 1)]).1 = some (3, []) := by
  decide +kernel

/-- **C25**, finding: `protocol` becomes `data` if the server says so: the acknowledgement of the options (0, 4, 0, 0) is then
sent in the clear. -/
theorem c25_protocol_becomes_data :
    ((cli none).run (up .protocol) 0 [hear 1 (oack .data), quiet 2]).2.map (·.2.take 7) =
      [[0, 2, 97, 0, 111, 99, 116], [0, 4, 0, 0], [0, 3, 0, 1, 248, 247, 246]] := by
  decide +kernel

/-- **C25**, finding (an instance of `c25_plain_answer_downgrades`): level `protocol`, unknown key, plain acknowledgement. -/
theorem c25_plain_answer_sends_plain_text :
    ((cli none).run (up .protocol) 0 [hear 1 (.ack 0), quiet 2]).2.map (·.2.take 7) =
      [[0, 2, 97, 0, 111, 99, 116], [0, 3, 0, 1, 7, 8, 9]] := by
  decide +kernel

/-- A host which is not the server, and another port of the server. -/
def elsewhere : Ep := ⟨2, 69⟩
def otherPort : Ep := ⟨1, 70⟩

/-- C30: `c30_plain_client_partial` (and so `c30_foreign_ignored_partial`) applies to an unencrypted download. It succeeds although
datagrams from another host and another port, one of them a data packet, arrive in between. -/
example : Spec.NoEncryption (down .none) ∧
    (Spec.server ((cli none).run (down .none) 0 [hear 1 tsize]).1 = some here) ∧
    result ((cli none).run (down .none) 0 [hear 1 tsize, hears 2 elsewhere (Packet.data 1 [66]).toBytes,
      hears 3 otherPort [1, 2, 3], hear 4 (.data 1 [7, 8])]).1 = some (2, [7, 8]) := by
  refine ⟨rfl, ?_⟩
  decide +kernel

/-- C30: the finding `c30_foreign_aborts_encrypted`: a download of level `protocol` is ended by a short datagram of a third host. -/
example : isDown ((cli none).run (down .protocol) 0 [hear 1 (oack .protocol)]).1 = true ∧
    failure ((cli none).run (down .protocol) 0 [hear 1 (oack .protocol), hears 2 elsewhere [0]]).1 = some .io := by
  decide +kernel

/-- C30: the finding `c30_empty_datagram_breaks_handshake`. -/
example : failure ((cli none).run (down .none) 0 [hears 1 elsewhere [], hear 2 (.data 1 [7, 8])]).1 = some .invalid ∧
    result ((cli none).run (down .none) 0 [hear 2 (.data 1 [7, 8])]).1 = some (6, [7, 8]) := by
  decide +kernel

/-- C31: four requests, with pauses 80, 160, 320 and 440, then the timeout (1000 ms, checked when a wait ends). -/
example : Spec.Silence (cli none) (up .none) ((cli none).start (up .none) 0).exts [quiet 80, quiet 240, quiet 560, quiet 1001] ∧
    Spec.Waits 1000 80 1 [80, 240, 560, 1001] ∧
    isQuery ((cli none).run (up .none) 0 [quiet 80, quiet 240, quiet 560]).1 = true ∧
    ((cli none).run (up .none) 0 [quiet 80, quiet 240, quiet 560, quiet 1001, quiet 1002]).2.length = 4 ∧
    failure ((cli none).run (up .none) 0 [quiet 80, quiet 240, quiet 560, quiet 1001]).1 = some .timeout := by
  refine ⟨⟨?_, ?_⟩, ?_, by decide +kernel⟩
  · intro i hi
    simp only [List.mem_cons, List.not_mem_nil, or_false] at hi
    rcases hi with rfl | rfl | rfl | rfl <;> rfl
  · intro i hi
    simp only [List.mem_cons, List.not_mem_nil, or_false] at hi
    rcases hi with rfl | rfl | rfl | rfl <;> rfl
  · intro n hn
    have : n = 0 ∨ n = 1 ∨ n = 2 ∨ n = 3 := by simp at hn; omega
    rcases this with rfl | rfl | rfl | rfl <;> (simp only [Spec.pause]; decide +revert)

/-- C32: `c32_upload_partial`: a complete upload to a server which acknowledges the request without options. -/
example : Spec.NoEncryption (up .none) ∧ 516 ≤ ((cli none).start (up .none) 0).room ∧
    result ((cli none).run (up .none) 0 [hear 1 (.ack 0), hear 2 (.ack 1)]).1 = some (3, []) := by
  refine ⟨rfl, ?_⟩
  decide +kernel

/-- C32: a refusal of the options, then success without them (`c32_retry_without_options`). -/
example : result ((cli none).run (up .none) 0 [hear 1 (.error .illegalOperation [65]), hear 2 (.ack 0), hear 3 (.ack 1)]).1 = some (3, []) ∧
    result ((cli none).run (down .none) 0 [hear 1 (.error .undefined [65]), hear 2 (.data 1 [5])]).1 = some (5, [5]) := by
  decide +kernel

end Toy
end Tftp

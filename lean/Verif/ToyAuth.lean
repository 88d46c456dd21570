import Verif.Authority
import Verif.ToyKeys
/-
C77 on a small server with one authorized key. Nothing here models code.
-/
namespace Tftp
namespace Toy

set_option maxRecDepth 20000

/-- A server with an authorized key list; its session cipher recognises its own tag. -/
def guarded : Srv sig := ⟨{ cfg with authorized := some [List.replicate 32 1] }, 10, false, fun _ => keyed 1, fun _ => keyed 2,
  fun _ => List.replicate 24 0, by simp⟩

def guardedJob (l : Level) (upload : Bool) : Request := ⟨if upload then [97] else [98], createExtensions ⟨512, 80, some 0, l, 1⟩ cliKeys⟩

def signedWrite : Bytes := (Packet.write (guardedJob .protocol true)).toBytes
def signedRead : Bytes := (Packet.read (guardedJob .data false)).toBytes

def sealedBlock (k : UInt8) : Bytes := match sealPacket (keyed k) (List.replicate 24 0) (Packet.data 1 [7, 8]).toBytes 516 with
  | .ok d => d
  | _ => []

/-- The content of the upload of an address, after the events. -/
def contentOf (evs : List SrvEv) (a : Addr) : Option Bytes := match (guarded.run ⟨[], 0⟩ evs).conn a with
  | some c => match c.side with
    | .writer s => some s.w.out
    | .reader _ => none
  | none => none

def authIo : RecvIo := ⟨WriteIo.all, true, 0⟩

/-- C77: a signed upload stores what is sealed with the session cipher, ... -/
example : contentOf [.main 0 1 signedWrite io, .client 1 1 (sealedBlock 2) authIo] 1 = some [7, 8] := by decide +kernel
/-- ... and nothing else; -/
example : contentOf [.main 0 1 signedWrite io, .client 1 1 (sealedBlock 3) authIo, .client 1 1 [0, 3, 0, 1, 7, 8] authIo] 1 = some [] := by decide +kernel
/-- a request without signature gets a refusal. -/
example : contentOf [.main 0 1 wrq io] 1 = none ∧ sentTo 1 (guarded.sent ⟨[], 0⟩ [.main 0 1 wrq io]) = [[0, 5, 0, 4, 0]] := by decide +kernel

/-- C77: the request is signed in the sense of the specification. -/
example : ∃ remote, Spec.Signed guarded [List.replicate 32 1] signedWrite remote := by
  have h : isOk (guarded.newConn 0 signedWrite io).result = true := by decide +kernel
  obtain ⟨⟨c, out⟩, hc⟩ := of_isOk h
  obtain ⟨write, r, used, keys, name, kind, f1, f2, -⟩ := newConn_ok hc
  obtain ⟨u0, o0, hp, -⟩ := srvNegotiate_ok f2
  obtain ⟨remote, hsig, -⟩ := parse_signed (v := guarded) (ks := [List.replicate 32 1]) rfl f1 hp
  exact ⟨remote, hsig⟩

/-- C77: a signed download sends file data, sealed; the second block is the answer to an acknowledgement. -/
example : (sentTo 1 (guarded.sent ⟨[], 0⟩ [.main 0 1 signedRead io, .round 1 sio])).length = 2 ∧
    ((sentTo 1 (guarded.sent ⟨[], 0⟩ [.main 0 1 signedRead io, .round 1 sio])).drop 1).all (fun d => d.take 4 = [0, 3, 0, 1] ∧
      d.drop 4 = ((keyed 2).enc (List.replicate 24 0) [7, 8, 9]).1 ++ List.replicate 16 2 ++ List.replicate 24 0) := by decide +kernel

/-- C77, `c77_credentials_reused`: the credentials of the download of "b" let somebody else begin an upload of "a". -/
example : contentOf [.main 5 9 (Packet.write ⟨[97], (guardedJob .data false).exts⟩).toBytes io] 9 = some [] ∧
    (guarded.openRequest signedRead).1.isNone ∧ isOk (guarded.newConn 0 signedRead io).result = true := by decide +kernel

end Toy
end Tftp

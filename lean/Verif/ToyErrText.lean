import Verif.ErrorText
import Verif.ToyEnd
/-
Instances for C78.
-/
namespace Tftp
open Spec

/-! ### Instances -/

namespace Toy

def refusedFor {S} (v : Srv S) (dg : Bytes) (io : NewIo) : Option Refusal := match (v.newConn 0 dg io).result with
  | .error x => some x
  | .ok _ => none

theorem refused_iff {S} {v : Srv S} {dg : Bytes} {io : NewIo} {x : Refusal} (h : refusedFor v dg io = some x) : (v.newConn 0 dg io).result = .error x := by
  unfold refusedFor at h
  split at h
  · rename_i y hy; cases h; exact hy
  · cases h

/-- A request with one option. -/
def asking (name : String) (k val : String) : Bytes :=
  [0, 1] ++ ascii name ++ [0] ++ ascii "octet" ++ [0] ++ ascii k ++ [0] ++ ascii val ++ [0]

/-- A server with a key. -/
def lockedSrv : Srv sig := { boxSrv with cfg := { cfg with privateKey := some key } }

/-- The request for "../.." sealed for the server with a cipher. -/
def sealedAsking : Bytes := match sealInitial box (List.replicate 24 0) (List.replicate 32 6) ([0, 1] ++ ascii "../.." ++ [0] ++ ascii "octet" ++ [0]) 516 with
  | .ok d => d
  | _ => []

end Toy

open Toy in
/-- Non-vacuity: a missing file, a forbidden name, a too large file, an unknown encryption level. -/
example : refusedFor srv rrq { io with openRead := fun _ => none } = some .file ∧
    srv.answers rrq { io with openRead := fun _ => none } = [[0, 5, 0, 3] ++ ascii "Unable to read file a" ++ [0]] ∧
    refusedFor srv (asking "/.." "blksize" "600") io = some .name ∧
    srv.answers (asking "/.." "blksize" "600") io = [[0, 5, 0, 2] ++ ascii "Invalid file name received /.." ++ [0]] ∧
    refusedFor srv (asking "a" "tsize" "18446744073709551615") io = some .size ∧
    srv.answers (asking "a" "tsize" "18446744073709551615") io = [[0, 5, 0, 3] ++ ascii "Invalid file size received 18446744073709551615" ++ [0]] ∧
    refusedFor srv (asking "a" "enclevel" "best") io = some .options ∧
    srv.answers (asking "a" "enclevel" "best") io = [[0, 5, 0, 4] ++ ascii "Invalid extension parsing error Failed to encrypt" ++ [0]] := by
  decide +kernel

open Toy in
/-- Non-vacuity of `c78_name_lost`: a sealed request for "../..", and a client with the same cipher which gets the answer. -/
example : refusedFor lockedSrv sealedAsking boxIo = some .name ∧ (lockedSrv.openRequest sealedAsking).1.isSome ∧
    lockedSrv.answers sealedAsking boxIo = [[0, 5, 0, 2] ++ ascii "Invalid file name received ../.." ++ [0]] := by
  decide +kernel

namespace Toy

def knowing : Cli sig := { boxCli with cfg := { boxCli.cfg with remoteKey := some (List.replicate 32 1) } }

def fullJob : Job := ⟨.download true, [97], ⟨512, 80, some 0, .full, 2⟩⟩

/-- How the call ends when this datagram comes from the server. -/
def endsWith (d : Bytes) : Option CliErr := match (knowing.queryStep fullJob (knowing.start fullJob 0) (hears 0 knowing.cfg.endpoint d)).1 with
  | .done (.error e) _ => some e
  | _ => none

end Toy

open Toy in
/-- Non-vacuity of `c78_client` and `c78_name_lost`: a client which knows the server's key; the sealed answer about a missing file ends
its call with the error of the server, the answer in the clear about the name with an i/o error. -/
example : ((lockedSrv.replyText (some box) { Opts.default with level := .full } 0 .diskFull (ascii "Unable to read file a")).map fun d =>
      (endsWith d, decide (d.length ≤ (knowing.start fullJob 0).room))) = [(some .remoteError, true)] ∧
    (lockedSrv.answers sealedAsking boxIo).map endsWith = [some .io] := by
  decide +kernel

end Tftp

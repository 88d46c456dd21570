import Verif.ToyEnd
/-
C30, C25: findings about datagrams of strangers during the handshake, as complete runs of the client and the server. Nothing here models code.
-/
namespace Tftp
namespace Toy
open Spec

set_option maxRecDepth 20000

/-- A host which takes no part in the transfer. -/
def stranger : Ep := ⟨77, 1⟩

/-- The first iteration of the client: it sends its request and receives 12 bytes from a stranger. -/
def disturbed (v : Parties sig) : World := v.step (v.init 0) (.client (hears 0 stranger (List.replicate 12 0)))

/-- The first iteration without the stranger. -/
def undisturbed (v : Parties sig) : World := v.step (v.init 0) (.client (quiet 0))

/-- The level of the server's connection. -/
def serverLevel (w : World) : Option Level := (w.conns sock).map (·.opts.level)

/-- What is stored when encrypted blocks are taken for plain ones. -/
def garbage : Bytes :=
  match sealData box (List.replicate 24 0) ([0, 3, 0, 1] ++ content.take 472), sealData box (List.replicate 24 0) ([0, 3, 0, 2] ++ content.drop 472) with
  | .ok a, .ok b => a.drop 4 ++ b.drop 4
  | _, _ => []

/-- **C30**, finding: one datagram of 12 bytes from anybody during the handshake cuts the server's acceptance after its first option. The
client takes this for an acceptance without encryption, stores the encrypted blocks as they are, and reports success. Without the stranger the
same moves store the file. -/
theorem c30_foreign_datagram_corrupts :
    let moves := [.start 0, .hear 0, .tick, .tick, .hear 1, .hear 0, .recv 0, .tick, .hear 0]
    serverLevel (play (fetchIt .optionalData) (disturbed (fetchIt .optionalData)) moves) = some .data ∧
    result (play (fetchIt .optionalData) (disturbed (fetchIt .optionalData)) moves).cli = some (680, garbage) ∧
    garbage.length = 680 ∧
    result (play (fetchIt .optionalData) (undisturbed (fetchIt .optionalData)) moves).cli = some (600, content) := by
  decide +kernel

/-- **C25**, finding: the same datagram makes the client send the file (its first 512 bytes) in the clear to a server which has agreed to
encrypt everything. Without the stranger the datagram is encrypted. -/
theorem c25_foreign_datagram_downgrades :
    let moves := [.start 0, .hear 0, .quiet]
    serverLevel (play (sendIt .optionalProtocol) (disturbed (sendIt .optionalProtocol)) moves) = some .protocol ∧
    (play (sendIt .optionalProtocol) (disturbed (sendIt .optionalProtocol)) moves).up.head?.map (·.bytes) = some ([0, 3, 0, 1] ++ content.take 512) ∧
    (play (sendIt .optionalProtocol) (undisturbed (sendIt .optionalProtocol)) moves).up.head?.map (·.bytes) ≠ some ([0, 3, 0, 1] ++ content.take 512) := by
  decide +kernel

end Toy
end Tftp

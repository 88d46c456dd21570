import Verif.RfcUp
import Verif.RfcRounds
import Verif.RfcDown
import Verif.ToyTime
/-
Examples for C80, C81 and C82: the hypotheses of their theorems are met by concrete transfers. Nothing here models code.
-/
namespace Tftp
namespace Toy
open Rfc

set_option maxRecDepth 8000

/-- A download in windows of two blocks. The peer hears the second block before the first and a duplicate of the first, its first
acknowledgement is lost; the server's file has 1100 bytes. -/
def fetchEvs : List FetchEv := [.tick 1 (sio 1), .tick 1 (sio 1), .hear 0, .hear 1, .hear 1, .ack, .hear 0, .ack, .arrive 0 2 rio1, .tick 3 (sio 1),
  .hear 0, .ack, .arrive 0 4 rio1]

/-- The peer has taken the file in three blocks and the server is finished; in the middle (C80, completion) the server is active. -/
example : (match (srv.newConn 0 rrq2 io2).result with
    | .ok (c, out) =>
      let X := (Fetch.init c out).run srv false (blockSize out) (some 100) fetchEvs
      let Y := (Fetch.init c out).run srv false (blockSize out) (some 100) (fetchEvs.take 8)
      decide (c.enc.isNone = true ∧ blockSize out = 512 ∧ windowSize out = 2 ∧ X.peer.blocks = 3 ∧ X.peer.done = true ∧
        X.peer.out = List.replicate 1100 7 ∧ X.conn.map Conn.finished = some true ∧ Y.peer.blocks = 2 ∧ Y.conn.map Conn.active = some true)
    | .error _ => false) = true := by decide +kernel

/-- ... the hypotheses about the request, the limits of the server and the network. -/
example : srv.requestOf rrq2 = some (false, ⟨[97], Exts.empty.insert .windowSize [50]⟩) ∧ normalizeName [97] = some [97] ∧
    io2.openRead [97] = some (some 1100, List.replicate 1100 7) ∧ (512 ≤ srv.cfg.maxBlock ∧ srv.cfg.maxBlock ≤ 65535) ∧
    (1 ≤ srv.cfg.maxWindow ∧ srv.cfg.maxWindow ≤ 65535) ∧ Distinct (some 100) 2 3 ∧ Distinct none 2 3 ∧ srv.cfg.privateKey = none ∧
    (Exts.empty.insert .windowSize [50]) .encryptionLevel = none := by
  refine ⟨?_, normalizeName_a, rfl, by decide +kernel, by decide +kernel, (by show 100 + 2 ≤ 10000; decide), (by show 3 ≤ 55535; decide), rfl, rfl⟩
  unfold Srv.requestOf
  rfl

/-- A write request for "a" with windows of two blocks. -/
def wrq2 : Bytes := (Packet.write ⟨[97], Exts.empty.insert .windowSize [50]⟩).toBytes

/-- An upload of 1100 bytes in windows of two blocks. The second block arrives before the first and again after it, an old acknowledgement is
heard twice. -/
def storeEvs : List StoreEv := [.hear 0, .send 0, .send 1, .arrive 0 1 rio1, .arrive 1 2 rio1, .arrive 0 3 rio1, .tick 4 (sio 1), .hear 0, .hear 0,
  .send 0, .arrive 0 5 rio1, .tick 5 (sio 1), .hear 0]

example : (match (srv.newConn 0 wrq2 io2).result with
    | .ok (c, out) =>
      let file := List.replicate 1100 (7 : UInt8)
      let X := (Store.init c out).run srv false file (blockSize out) (windowSize out) (some 100) storeEvs
      let Y := (Store.init c out).run srv false file (blockSize out) (windowSize out) (some 100) (storeEvs.take 8)
      decide (c.enc.isNone = true ∧ blockSize out = 512 ∧ windowSize out = 2 ∧ X.confirmed = 3 ∧ X.stored = file ∧
        X.conn.map Conn.finished = some true ∧ Y.confirmed = 2 ∧ Y.stored = file.take 1024 ∧ Y.conn.map Conn.failed = some false ∧
        Y.conn.map Conn.finished = some false)
    | .error _ => false) = true := by decide +kernel

example : srv.requestOf wrq2 = some (true, ⟨[97], Exts.empty.insert .windowSize [50]⟩) ∧ (∀ e ∈ storeEvs, e.sound) ∧ 1100 ≤ srv.cfg.maxFileSize := by
  refine ⟨rfl, ?_, by decide +kernel⟩
  intro e he
  simp only [storeEvs, List.mem_cons, List.not_mem_nil, or_false] at he
  rcases he with h | h | h | h | h | h | h | h | h | h | h | h | h <;> (subst h; first | trivial | exact .inl rfl)

/-- C82: both directions in two windows, three blocks and two acknowledgements; nobody waits. -/
example : (match (srv.newConn 5 wrq2 io2).result with
    | .ok (c, out) =>
      let file := List.replicate 1100 (7 : UInt8)
      let X := (Store.init c out).run srv false file (blockSize out) (windowSize out) none (upRounds 5 1 2 3 (windows 3 2))
      decide (c.enc.isNone = true ∧ windows 3 2 = 2 ∧ X.confirmed = 3 ∧ X.stored = file ∧ X.conn.map Conn.finished = some true ∧
        X.toServer.length = 3 ∧ X.toPeer.length = out.length + 2)
    | .error _ => false) = true := by decide +kernel

example : (match (srv.newConn 5 rrq2 io2).result with
    | .ok (c, out) =>
      let X := (Fetch.init c out).run srv false (blockSize out) none (downRounds 5 1 2 3 (windows 3 2))
      decide (c.enc.isNone = true ∧ windowSize out = 2 ∧ X.peer.done = true ∧ X.peer.out = List.replicate 1100 7 ∧
        X.conn.map Conn.finished = some true ∧ X.toPeer.length = out.length + 3 ∧ X.toServer.length = 2)
    | .error _ => false) = true := by decide +kernel

end Toy
end Tftp

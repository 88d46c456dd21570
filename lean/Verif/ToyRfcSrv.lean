import Verif.RfcSend
import Verif.RfcTake
import Verif.RfcCliRounds
import Verif.ToyClient
/-
Examples for C83, C84 and C85: the hypotheses of their theorems are met by concrete transfers. Nothing here models code.
-/
namespace Tftp
namespace Toy
open Rfc

set_option maxRecDepth 8000

/-- Send 1100 bytes as "a" in windows of two blocks. -/
def bigUp : Job := ⟨.upload (some 1100) (List.replicate 1100 7), [97], ⟨512, 80, some 0, .none, 2⟩⟩

/-- The OACK of a server which grants the window but no larger block, and repeats the size of the file. -/
def windowed : Bytes := (Packet.optionalAck ((Exts.empty.insert .windowSize [50]).insert .transferSize (decimal 1100))).toBytes

/-- An upload to a server of the RFCs. The OACK is lost once and then received twice; the second block arrives before the first, which is
repeated; an acknowledgement is heard twice. -/
def uploadEvs : List SendEv := [.client (quiet 1) none, .ack, .ack, .client (quiet 2) (some 0), .client { quiet 3 with retry := false } (some 1),
  .client { quiet 3 with retry := false } none, .hear 0, .hear 1, .client (quiet 4) none, .hear 0, .ack, .client { quiet 4 with retry := false } (some 0),
  .client { quiet 5 with retry := false } (some 0), .client { quiet 5 with retry := false } none, .hear 1, .hear 0, .ack, .client (quiet 6) (some 0)]

def plainSend (s : Rfc.Send) : Nat × Bool × Bytes × Option (Nat × Bytes) := (s.peer.blocks, s.peer.done, s.peer.out, result s.cli)

/-- Both sides are done. -/
example : plainSend ((Send.init (cli none) bigUp 0).run (cli none) bigUp here windowed (some 100) uploadEvs) =
    (3, true, List.replicate 1100 7, some (1100, [])) := by decide +kernel

/-- In the middle (C83, completion) the server has one block. -/
example : plainSend ((Send.init (cli none) bigUp 0).run (cli none) bigUp here windowed (some 100) (uploadEvs.take 9)) =
    (1, false, List.replicate 512 7, none) := by decide +kernel

def windowedExts : Exts := (Exts.empty.insert .windowSize [50]).insert .transferSize (decimal 1100)

/-- ... the hypotheses about the job, the answer, the sizes and the network. -/
example : Spec.NoEncryption bigUp ∧ (1 ≤ bigUp.opts.window ∧ bigUp.opts.window ≤ 65535) ∧ WriteAnswer windowed ∧ WriteAnswer (ackPacket 0) ∧
    windowed.length ≤ 512 ∧ blockSize [windowed] = 512 ∧ Distinct (some 100) 2 3 ∧ Distinct none 2 3 := by
  refine ⟨rfl, by decide, .inr ?_, .inl rfl, by decide +kernel, by decide +kernel, (by show 100 + 2 ≤ 10000; decide), (by show 3 ≤ 55535; decide)⟩
  exact of_isOack (by decide +kernel)

/-- The options are those the client has asked for, and not larger. -/
example : Confirms ((cli none).start bigUp 0).exts windowedExts := by
  refine ⟨?_, ?_, ?_, ?_, ?_⟩
  · intro k; cases k <;> decide +kernel
  · intro t ht; cases ht
  · intro t ht; cases ht; exact ⟨2, 2, by decide +kernel, by decide, by decide +kernel, by decide⟩
  · intro t ht; cases ht
  · intro t ht; cases ht; exact .inr ⟨1100, by decide +kernel, by decide +kernel⟩

/-- Fetch "a" in windows of two blocks. -/
def bigDown : Job := ⟨.download true, [97], ⟨512, 80, some 0, .none, 2⟩⟩

/-- A download from a server of the RFCs. The OACK is sent twice; the second block arrives before the first; the acknowledgement of the
first window is lost, the first block is repeated and the acknowledgement is repeated. -/
def downloadEvs : List TakeEv := [.client (quiet 1) none, .oack, .oack, .client (quiet 2) (some 0), .hear 1, .client (quiet 3) (some 1), .send 0, .send 1,
  .client (quiet 4) (some 0), .client (quiet 4) (some 1), .client (quiet 4) (some 0), .client (quiet 5) (some 1), .hear 0, .send 0, .client (quiet 6) (some 0),
  .hear 0]

def plainTake (s : Rfc.Take) : Bool × Nat × Bytes × Option (Nat × Bytes) × Bool := (s.started, s.confirmed, fileOf s.cli, result s.cli, isDown s.cli)

def takeRun (es : List TakeEv) : Rfc.Take := (Take.init (cli none) bigDown 0).run (cli none) bigDown here windowed (List.replicate 1100 7) (some 100) es

/-- Both sides are done. -/
example : plainTake (takeRun downloadEvs) = (true, 3, List.replicate 1100 7, some (1100, List.replicate 1100 7), false) := by decide +kernel

/-- In the middle (C84, completion) the client has two blocks and the server does not know. -/
example : plainTake (takeRun (downloadEvs.take 12)) = (true, 0, List.replicate 1024 7, none, true) := by decide +kernel

/-- The hypotheses of `c84_lost_ack`: the client has accepted the OACK, the server does not know. -/
example : plainTake (takeRun (downloadEvs.take 4)) = (false, 0, [], none, true) := by decide +kernel

def takeTimeout (s : Rfc.Take) : Bool := match s.cli with
  | .done (.error .timeout) _ => true
  | _ => false

/-- ... and what follows from it: the OACK is repeated until the client gives up. -/
example : takeTimeout ((takeRun (downloadEvs.take 4)).lost.run (cli none) bigDown here windowed (List.replicate 1100 7)
    (some 100) [.oack, .client (quiet 500) (some 0), .oack, .client (quiet 900) (some 0), .client (quiet 1003) none]) =
    true := by decide +kernel

example : Spec.NoEncryption bigDown ∧ (∀ e ∈ downloadEvs, e.sound) ∧ windowSize [windowed] = 2 ∧ 1100 ≤ (cli none).cfg.maxFileSize ∧
    parseUInt (2 ^ 64 - 1) (decimal 1100) = some 1100 := by
  refine ⟨rfl, ?_, by decide +kernel, by decide +kernel, by decide +kernel⟩
  intro e he
  simp only [downloadEvs, List.mem_cons, List.not_mem_nil, or_false] at he
  rcases he with h | h | h | h | h | h | h | h | h | h | h | h | h | h | h | h <;> (subst h; first | trivial | exact .inl rfl)

example : Confirms ((cli none).start bigDown 0).exts windowedExts := by
  refine ⟨?_, ?_, ?_, ?_, ?_⟩
  · intro k; cases k <;> decide +kernel
  · intro t ht; cases ht
  · intro t ht; cases ht; exact ⟨2, 2, by decide +kernel, by decide, by decide +kernel, by decide⟩
  · intro t ht; cases ht
  · intro t ht; cases ht; exact .inl (by decide +kernel)

/-- C85: windows of two blocks and of one, without a timer. -/
example : plainTake (takeRun (takeStart 9 0 ++ takeRounds 9 0 2 3 (windows 3 2))) =
    (true, 3, List.replicate 1100 7, some (1100, List.replicate 1100 7), false) := by decide +kernel

example : plainSend ((Send.init (cli none) bigUp 9).run (cli none) bigUp here windowed (some 100) (sendStart 9 0 ++ sendRounds 9 0 2 3 (windows 3 2))) =
    (3, true, List.replicate 1100 7, some (1100, [])) := by decide +kernel

end Toy
end Tftp

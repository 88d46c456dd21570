import Verif.WindowSpec
/-
Independent specification of the observable behaviour of a block reader: a predicate on the whole
history of calls and answers. It only uses the file, the block size and the window size.
-/
namespace Tftp.Spec
open Tftp

/-- A call on a reader by a transfer loop. `next`: ask for a block to send (`retry`: the retry timer
has fired; `fail`: if the file has to be read, the read fails). `ack t`: the peer's acknowledgement of
block `t` (true block count) arrives; on the wire it is `t % 65536`. -/
inductive Call
  | next (retry fail : Bool)
  | ack (t : Nat)
deriving DecidableEq, Repr

/-- The answer to a call: for `next` a block, nothing, or an error; for `ack` the number of newly
confirmed bytes. -/
inductive Obs
  | out (o : NextOut)
  | freed (n : Option Nat)
deriving DecidableEq, Repr

/-- One call, its answer, and what `is_finished` says afterwards. -/
structure Event where
  call : Call
  obs : Obs
  finished : Bool
deriving DecidableEq, Repr

/-- Bytes `lo .. hi` of a file. -/
def slice (file : Bytes) (lo hi : Nat) : Bytes := (file.take hi).drop lo

/-- `TraceOk file bs W acked last emitted trace`: the trace is what a correct sliding window sender of
`file` in blocks of `bs` bytes and window `W` does, when blocks `1..acked` are acknowledged,
`1..emitted` have been handed out and `last` was the last one handed out.
The file has `file.length / bs + 1` blocks, the last one short and possibly empty.

Acknowledgements are constrained (otherwise nothing is said about the rest of the trace): they name a
block which has been handed out, and are at most 10000 blocks behind the newest acknowledgement. -/
def TraceOk (file : Bytes) (bs W : Nat) : (acked last emitted : Nat) → List Event → Prop
  | _, _, _, [] => True
  | acked, last, emitted, ⟨.next retry fail, obs, fin⟩ :: rest =>
    (fin = true ↔ acked = file.length / bs + 1) ∧
    ((obs = .out .ioErr ∧ fail = true ∧ TraceOk file bs W acked last emitted rest) ∨
     (obs = .out .none ∧
        -- everything handed out, or the window is full; and nothing to repeat
        (emitted = file.length / bs + 1 ∨ emitted = acked + W) ∧ last = emitted ∧
        (retry = true → acked = emitted) ∧
        TraceOk file bs W acked last emitted rest) ∨
     (∃ i, obs = .out (.block ⟨i % 65536, i, slice file ((i - 1) * bs) (i * bs), decide (i ≤ emitted)⟩) ∧
        acked < i ∧ i ≤ acked + W ∧ i ≤ file.length / bs + 1 ∧
        i = (if retry = true ∧ acked < emitted then acked + 1 else last + 1) ∧
        TraceOk file bs W acked i (max emitted i) rest))
  | acked, last, emitted, ⟨.ack t, obs, fin⟩ :: rest =>
    t ≤ emitted → acked ≤ t + 10000 →
    (obs = .freed (some (min file.length (t * bs) - min file.length (acked * bs))) ∧
     (fin = true ↔ max acked t = file.length / bs + 1) ∧
     TraceOk file bs W (max acked t) (if acked < t then t else last) emitted rest)

end Tftp.Spec

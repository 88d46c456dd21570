import Verif.Readers
/-
Independent specification of a block reader: a sliding window over the file.
`base` = highest acknowledged block, `top` = highest block emitted, `cur` = last block emitted.
-/
namespace Tftp.Spec
open Tftp

/-- Block `i` (numbered from 1) of a file cut in pieces of `bs` bytes. -/
def block (file : Bytes) (bs i : Nat) : Bytes := (file.drop ((i - 1) * bs)).take bs

/-- Number of blocks of a transfer: all full blocks and one final short (maybe empty) block. -/
def nblocks (file : Bytes) (bs : Nat) : Nat := file.length / bs + 1

/-- Number of file bytes in the first `i` blocks. -/
def bytesIn (file : Bytes) (bs i : Nat) : Nat := min file.length (i * bs)

structure Window where
  base : Nat
  cur : Nat
  top : Nat
deriving DecidableEq, Repr

def Window.init : Window := ⟨0, 0, 0⟩

/-- Everything has been emitted and acknowledged. -/
def Window.finished (file : Bytes) (bs : Nat) (w : Window) : Prop :=
  w.base = w.top ∧ w.top = nblocks file bs

instance (file bs w) : Decidable (Window.finished file bs w) := by
  unfold Window.finished; infer_instance

/-- What the reader has to hand out when asked for a block: on a retry the oldest unacknowledged
block; otherwise the block after the last one handed out, a new one only if the window has room. -/
def Window.next (file : Bytes) (bs size : Nat) (w : Window) (retry : Bool) :
    Window × Option (Nat × Bool) :=
  if retry ∧ w.base < w.top then ({ w with cur := w.base + 1 }, some (w.base + 1, true))
  else if w.cur < w.top then ({ w with cur := w.cur + 1 }, some (w.cur + 1, true))
  else if w.top < nblocks file bs ∧ w.top - w.base < size then
    ({ w with cur := w.top + 1, top := w.top + 1 }, some (w.top + 1, false))
  else (w, none)

/-- Cumulative acknowledgement of block `t`: the number of newly confirmed file bytes. -/
def Window.ack (file : Bytes) (bs : Nat) (w : Window) (t : Nat) : Window × Nat :=
  let t := min t w.top
  if w.base < t then
    ({ w with base := t, cur := t }, bytesIn file bs t - bytesIn file bs w.base)
  else (w, 0)

end Tftp.Spec

import Verif.Flood
import Verif.Retransmit
import Verif.ClientTimeout
import Verif.Requests
import Verif.ToyClient
/-
Examples for C68, C69 and C70: the hypotheses of their theorems are met by concrete histories. Nothing here models code.
-/
namespace Tftp
namespace Toy

set_option maxRecDepth 8000

/-- C68: a download which has got one block of two, and then nothing: still alive 1000 ms after that block, given up after 1001 ms. -/
def stalled : List CliIn := [hear 1 tsize, hear 500 (.data 1 (List.replicate 512 7)), quiet 1400, quiet 1500, quiet 1501]

example : Spec.transferring ((cli none).before (down .none) 0 stalled 4) = true ∧
    Spec.transferring ((cli none).before (down .none) 0 stalled 3) = true ∧
    Spec.timedOut ((cli none).before (down .none) 0 stalled 5) = true ∧
    (stalled.map (·.t)).Pairwise (· ≤ ·) ∧ stalled[4]?.map (·.recv) = some .wouldBlock := by
  refine ⟨by decide +kernel, by decide +kernel, by decide +kernel, by decide +kernel, rfl⟩

/-- ... the progress in question. -/
example : Spec.ClientProgress ((cli none).before (down .none) 0 stalled 1) (hear 500 (.data 1 (List.replicate 512 7)))
    ((cli none).before (down .none) 0 stalled 2) := by
  have : (match (cli none).before (down .none) 0 stalled 1, (cli none).before (down .none) 0 stalled 2 with
    | .down _ _ _ s _ _, .down _ _ _ s' _ _ => decide (s.w.written < s'.w.written)
    | _, _ => false) = true := by decide +kernel
  unfold Spec.ClientProgress
  split at this
  · rename_i h1 h2
    rw [h1, h2]
    simpa using this
  · cases this

/-- C70: the client waits for an answer before both iterations; its first request announces the size of the file, the second one, after the server has
refused options, nothing. -/
def refused : List CliIn := [hear 1 (.error .illegalOperation [65]), quiet 100]

example : (List.range 2).all (fun k => isQuery ((cli none).before (up .none) 0 refused k)) = true ∧
    ((cli none).run (up .none) 0 refused).2 =
      [(here, (Packet.write ⟨[97], Exts.empty.insert .transferSize [51]⟩).toBytes), (here, (Packet.write ⟨[97], Exts.empty⟩).toBytes)] ∧
    Spec.Text (up .none).name ∧ Spec.refusesOptions here (hear 1 (.error .illegalOperation [65])) := by
  refine ⟨by decide +kernel, by decide +kernel, by constructor <;> decide, here, _, 100, _, [65], rfl, rfl, rfl, .inl rfl⟩

/-- A read request for "a" with windows of two blocks. -/
def rrq2 : Bytes := (Packet.read ⟨[97], Exts.empty.insert .windowSize [50]⟩).toBytes

/-- The file has three blocks. -/
def io2 : NewIo := ⟨fun _ => some (some 1100, List.replicate 1100 7), fun _ => true, true, true, List.replicate 32 3, 0⟩

def rio1 : RecvIo := ⟨WriteIo.all, true, 0⟩

/-- The server's turns after the request: two blocks, nothing more until 80 ms have passed; two blocks again, nothing until another
240 ms have passed, two blocks again, and after a second the error message. -/
def begged : List LifeEv := [.tick 1 (sio 1), .tick 1 (sio 1), .tick 1 (sio 1), .tick 81 (sio 1), .tick 82 (sio 1), .tick 82 (sio 1),
  .tick 82 (sio 1), .tick 322 (sio 1), .tick 323 (sio 1), .tick 323 (sio 1), .tick 324 (sio 1), .check 1001 rio1, .tick 1002 (sio 1)]

/-- C69: the request is accepted with one answer, and the history `begged` is silent and in order. -/
example : (match (srv.newConn 0 rrq2 io2).result with
      | .ok (c, out) => out.length = 1 ∧ c.opts.window = 2 ∧ c.opts.retry = 80 ∧
        ((List.range 14).map fun k => (srv.lifeRun false (some c) (begged.take k)).2.length) = [0, 1, 2, 2, 2, 3, 4, 4, 4, 5, 6, 6, 7, 7] ∧
        (srv.lifeRun false (some c) begged).1.isSome = false
      | .error _ => False) ∧
    (begged.filterMap LifeEv.time).Pairwise (· ≤ ·) ∧ ∀ e ∈ begged, Spec.Silent e := by
  refine ⟨?_, by decide +kernel, ?_⟩
  · have : (match (srv.newConn 0 rrq2 io2).result with
      | .ok (c, out) => decide (out.length = 1 ∧ c.opts.window = 2 ∧ c.opts.retry = 80 ∧
        ((List.range 14).map fun k => (srv.lifeRun false (some c) (begged.take k)).2.length) = [0, 1, 2, 2, 2, 3, 4, 4, 4, 5, 6, 6, 7, 7] ∧
        (srv.lifeRun false (some c) begged).1.isSome = false)
      | .error _ => false) = true := by decide +kernel
    revert this
    cases (srv.newConn 0 rrq2 io2).result with
    | ok y => exact fun h => of_decide_eq_true h
    | error e => exact fun h => by cases h
  · intro e he
    simp only [begged, List.mem_cons, List.not_mem_nil, or_false] at he
    rcases he with h | h | h | h | h | h | h | h | h | h | h | h | h <;> (subst h; trivial)

/-- Both blocks of the window are sent and the first one is confirmed. -/
def halfway : List LifeEv := [.tick 1 (sio 1), .tick 2 (sio 1), .recv 5 [0, 4, 0, 1] rio1]

/-- C39: after `halfway` the second block of the file, bytes 513 to 1024, comes again at time 20403, more than 255 times 80 ms after the last
packet (`c39_goes_back`); before, at time 6, the third block follows the second, as the window has room (`c39_not_early`). -/
example : (match (srv.newConn 0 rrq2 io2).result with
      | .ok (c0, _) => (match (srv.lifeRun false (some c0) halfway).1 with
        | some c => c.active = true ∧ c.opts.retry = 80 ∧ c.opts.payload = 512 ∧ Spec.sentLast srv false (some c0) 0 halfway = 2 ∧
          (match c.side with | .reader s => s.total = 512 | .writer _ => False) ∧
          (srv.lifeStep false (some c) (.tick 20403 (sio 1))).2 = [(Packet.data 2 (List.replicate 512 7)).toBytes] ∧
          (srv.lifeStep false (some c) (.tick 6 (sio 1))).2 = [(Packet.data 2 (List.replicate 512 7)).toBytes] ∧
          (srv.lifeStep false (srv.lifeRun false (some c) [.tick 6 (sio 1), .check 7 rio1, .tick 86 ⟨false, .wouldBlock, 0⟩]).1
            (.tick 86 (sio 1))).2 = [] ∧
          (srv.lifeStep false (srv.lifeRun false (some c) [.tick 6 (sio 1), .check 7 rio1]).1
            (.tick 86 (sio 1))).2 = [(Packet.data 3 (List.replicate 76 7)).toBytes]
        | none => False)
      | .error _ => False) ∧ ∀ e ∈ halfway, e.later := by
  refine ⟨?_, ?_⟩
  · have : (match (srv.newConn 0 rrq2 io2).result with
      | .ok (c0, _) => (match (srv.lifeRun false (some c0) halfway).1 with
        | some c => decide (c.active = true ∧ c.opts.retry = 80 ∧ c.opts.payload = 512 ∧ Spec.sentLast srv false (some c0) 0 halfway = 2) &&
          ((match c.side with | .reader s => decide (s.total = 512) | .writer _ => false) &&
          decide ((srv.lifeStep false (some c) (.tick 20403 (sio 1))).2 = [(Packet.data 2 (List.replicate 512 7)).toBytes] ∧
          (srv.lifeStep false (some c) (.tick 6 (sio 1))).2 = [(Packet.data 2 (List.replicate 512 7)).toBytes] ∧
          (srv.lifeStep false (srv.lifeRun false (some c) [.tick 6 (sio 1), .check 7 rio1, .tick 86 ⟨false, .wouldBlock, 0⟩]).1
            (.tick 86 (sio 1))).2 = [] ∧
          (srv.lifeStep false (srv.lifeRun false (some c) [.tick 6 (sio 1), .check 7 rio1]).1
            (.tick 86 (sio 1))).2 = [(Packet.data 3 (List.replicate 76 7)).toBytes]))
        | none => false)
      | .error _ => false) = true := by decide +kernel
    revert this
    cases (srv.newConn 0 rrq2 io2).result with
    | error e => exact fun h => by cases h
    | ok y =>
      obtain ⟨c0, out⟩ := y
      simp only
      cases (srv.lifeRun false (some c0) halfway).1 with
      | none => exact fun h => by cases h
      | some c =>
        simp only [Bool.and_eq_true, decide_eq_true_eq]
        cases c.side with
        | writer s => exact fun h => by cases h.2.1
        | reader s => simp only [decide_eq_true_eq]; exact fun h => ⟨h.1.1, h.1.2.1, h.1.2.2.1, h.1.2.2.2, h.2.1, h.2.2⟩
  · intro e he
    simp only [halfway, List.mem_cons, List.not_mem_nil, or_false] at he
    rcases he with h | h | h <;> (subst h; trivial)

end Toy
end Tftp

import Verif.MultiTimers
import Verif.Toy
/-
Examples for Life.lean, Multi.lean and MultiTimers.lean with the server of Toy.lean.
-/
namespace Tftp
namespace Toy

set_option maxRecDepth 4000

def rio : RecvIo := ⟨.all, true, 0⟩

theorem mjoin (s : MSt) (t : Nat) (a : Addr) (h0 : s.up = true) (h1 : s.retain.handles.any (fun x => x.1 == a) = false)
    (h2 : s.retain.handles.length < 10) :
    srv.mstep s (.main t a rrq io) = (⟨(a, ⟨reader t, .top⟩) :: s.retain.handles, true⟩, []) := by
  have h3 : ¬ s.retain.handles.length ≥ srv.maxConn := by show ¬ s.retain.handles.length ≥ 10; omega
  have hu : s.retain.up = true := h0
  simp only [Srv.mstep, h0, h1, h3, rrq_accepted, if_false, Bool.false_eq_true, if_true]
  simp only [← hu]
  rfl

/-- Clients 1 and 2 fetch a file; client 1 acknowledges the only block and its thread ends; client 2 is silent for more than a second
and its thread ends; meanwhile the threads interleave. -/
def threads : List MEv :=
  [.thread 1 (.check 1 rio), .thread 2 (.check 1 rio), .thread 2 (.send 1 (sio 2)), .thread 1 (.send 2 (sio 1)),
   .thread 1 (.dgram 3 [0, 4, 0, 1] rio), .thread 2 .idle, .thread 1 (.check 4 rio), .thread 1 .exit,
   .thread 2 (.check 1001 rio)]

theorem mjoined : srv.mrun MSt.init ([.main 0 1 rrq io, .main 0 2 rrq io] ++ threads) =
    srv.mrun ⟨[(2, ⟨reader 0, .top⟩), (1, ⟨reader 0, .top⟩)], true⟩ threads := by
  rw [mrun_append]
  have : srv.mrun MSt.init [.main 0 1 rrq io, .main 0 2 rrq io] = (⟨[(2, ⟨reader 0, .top⟩), (1, ⟨reader 0, .top⟩)], true⟩, []) := by
    simp only [Srv.mrun]
    rw [mjoin MSt.init 0 1 rfl rfl (by decide)]
    rw [mjoin _ 0 2 rfl rfl (by decide)]
    rfl
  rw [this]
  rfl

/-- C22, C38, C50, C51: the state in the end, and what each client was sent. -/
example : (srv.mrun MSt.init ([.main 0 1 rrq io, .main 0 2 rrq io] ++ threads)).1.handles.map (fun x => (x.1, x.2.pc)) =
      [(2, .over), (1, .exited)] ∧
    sentTo 1 (srv.mrun MSt.init ([.main 0 1 rrq io, .main 0 2 rrq io] ++ threads)).2 = [[0, 3, 0, 1, 7, 8, 9]] ∧
    sentTo 2 (srv.mrun MSt.init ([.main 0 1 rrq io, .main 0 2 rrq io] ++ threads)).2 =
      [[0, 3, 0, 1, 7, 8, 9], [0, 5, 0, 2, 0]] := by
  rw [mjoined]; exact ⟨rfl, rfl, rfl⟩

/-- C50: the same for client 2 from a server of its own. -/
example : (srv.lifeRun true none [.start 0 rrq io, .check 1 rio, .tick 1 (sio 2), .check 1001 rio]).2 =
    [[0, 3, 0, 1, 7, 8, 9], [0, 5, 0, 2, 0]] := by
  simp only [Srv.lifeRun, Srv.lifeStep, rrq_accepted]; rfl

/-- C51: `c51_slot_reused` applies to client 1 afterwards, `c51_full_ignored` to client 2 (whose thread is not known to be over). -/
example : (∀ th, (srv.mrun MSt.init ([.main 0 1 rrq io, .main 0 2 rrq io] ++ threads)).1.thread 1 = some th → th.pc = .exited) ∧
    (srv.mrun MSt.init ([.main 0 1 rrq io, .main 0 2 rrq io] ++ threads)).1.running = 1 ∧
    (∃ th, (srv.mrun MSt.init ([.main 0 1 rrq io, .main 0 2 rrq io] ++ threads)).1.thread 2 = some th ∧ th.pc ≠ .exited) := by
  rw [mjoined]
  refine ⟨?_, rfl, ?_⟩
  · intro th h; cases h; rfl
  · exact ⟨_, rfl, by decide⟩

end Toy
end Tftp

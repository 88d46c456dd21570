import Verif.PollWake
import Verif.Toy
/-
Examples for C67 and C79: a server for one client; the client is accepted in iteration 0, acknowledges the block it is sent in iteration 1,
and the acknowledgement is read in iteration 2.
-/
namespace Tftp
namespace Toy

def oneSrv : Srv sig := { srv with maxConn := 1 }

/-- An iteration at time `t` in which nothing arrives. -/
def calm (t : Nat) : PTurn := ⟨t, t, t, fun _ => ⟨.all, true, 0⟩, sio, ⟨.all, true, 0⟩, io, [], [], 0⟩

def ackOne : Bytes := [0, 4, 0, 1]

def polling : List PTurn :=
  [{ calm 0 with during := [.main 7 rrq, .main 8 rrq] }, { calm 1 with before := [.client 7 (.data ackOne)] }] ++ List.replicate 10 (calm 2)

/-- Client 7 is accepted, 8 finds the server full; the acknowledgement is taken in iteration 2. -/
example : (List.range 4).map (fun k => (oneSrv.pout 0 polling k).map (fun o => (o.took, o.mainTook.map (·.1), o.accepted))) =
    [some ([], some 7, some 7), some ([], some 8, none), some ([(7, .data ackOne)], none, none), some ([], none, none)] := by
  decide +kernel

theorem polling_stays : ∀ k, k < 12 → 2 ≤ k → 7 ∈ Spec.table oneSrv (oneSrv.ploop 0 (polling.take k)).1 (polling.getD k (calm 0)) := by
  decide +kernel

/-- The hypotheses of `c67_every_datagram_read`, and its conclusion. -/
example : ∃ k, 2 ≤ k ∧ k < 2 + (1 + 3 + 0) * (1 + 1) ∧ (7, .data ackOne) ∈ Spec.took oneSrv 0 polling k := by
  have h : ((oneSrv.ploop 0 (polling.take 2)).2.sock 7).map (·.queue) = some [.data ackOne] := by decide +kernel
  obtain ⟨u, hu, hq⟩ := Option.map_eq_some_iff.mp h
  refine c67_every_datagram_read oneSrv 0 polling 2 0 7 u _ [] (by decide +kernel) hu hq (by decide) ?_ (by decide +kernel)
  intro k i h1 h2 hi
  have h2 : k < 10 := h2
  have := polling_stays k (by omega) h1
  rw [List.getD_eq_getElem?_getD, hi] at this
  exact this

/-- The hypotheses of `c67_every_request_read`: two requests wait at the main socket, the second one has one before it. -/
def twoWait : List PTurn := { calm 0 with before := [.main 5 rrq, .main 7 rrq, .main 8 rrq] } :: List.replicate 6 (calm 2)

example : ∃ k o, 1 ≤ k ∧ k < 1 + (1 + 1) * (1 + 1) ∧ oneSrv.pout 0 twoWait k = some o ∧ o.mainTook = some (8, rrq) :=
  c67_every_request_read oneSrv 0 twoWait 1 [(7, rrq)] [] (8, rrq) (by decide +kernel) (by decide)

/-- The hypotheses of `c67_in_order`. -/
example : ∃ u', (oneSrv.ploop 0 (polling.take 3)).2.sock 7 = some u' ∧ u'.queue = [] := by
  have h : ((oneSrv.ploop 0 (polling.take 1)).2.sock 7).map (·.queue) = some [] := by decide +kernel
  obtain ⟨u, hu, hq⟩ := Option.map_eq_some_iff.mp h
  obtain ⟨u', h1, h2⟩ := c67_in_order oneSrv 0 polling 1 2 7 u (by decide) hu (by
    have hs : ∀ k, k < 3 → 1 ≤ k → 7 ∈ Spec.table oneSrv (oneSrv.ploop 0 (polling.take k)).1 (polling.getD k (calm 0)) := by
      decide +kernel
    intro k i g1 g2 hi
    have := hs k g2 g1
    rw [List.getD_eq_getElem?_getD, hi] at this
    exact this)
  refine ⟨u', h1, ?_⟩
  rw [hq, show Spec.concat (Spec.arrivedAt oneSrv 0 polling 7) 1 2 = [.data ackOne] from by decide +kernel,
    show Spec.concat (fun k => Spec.ofClient 7 (Spec.took oneSrv 0 polling k)) 1 2 = [.data ackOne] from by decide +kernel] at h2
  simpa using h2

/-! ### C79 -/

/-- Client 7 is accepted and then silent, until its acknowledgement arrives while the server waits in iteration 5. -/
def sleeping (x : List Arrival) : List PTurn :=
  [{ calm 0 with during := [.main 7 rrq] }, { calm 1 with before := x }] ++ List.replicate 6 (calm 2) ++
    [{ calm 3 with during := [.client 7 (.data ackOne)] }]

/-- The hypotheses of `c79_request_wakes`, and its conclusion: the first request ends the wait of iteration 0. -/
example : Spec.reported oneSrv 0 (sleeping []) 0 ≠ [] :=
  c79_request_wakes oneSrv 0 (sleeping []) 0 _ rfl (.inl ⟨7, rrq, List.mem_singleton.mpr rfl⟩)

/-- The hypotheses of `c79_client_wakes_partial`, and its conclusion: in iteration 8 the server would sleep for 14 milliseconds, the
acknowledgement ends this. -/
example : Spec.reported oneSrv 0 (sleeping []) 8 ≠ [] := by
  have h : ((Spec.atWait oneSrv 0 (sleeping []) 8).sock 7).isSome = true := by decide +kernel
  obtain ⟨s, hs⟩ := Option.isSome_iff_exists.mp h
  have hp : (oneSrv.pout 0 (sleeping []) 8).map (·.out.polled) = some (some (some 14)) := by decide +kernel
  obtain ⟨o, ho, hp⟩ := Option.map_eq_some_iff.mp hp
  exact c79_client_wakes_partial oneSrv 0 (sleeping []) 8 14 { calm 3 with during := [.client 7 (.data ackOne)] } rfl (by decide +kernel)
    ⟨o, ho, hp⟩ 7 s hs (by decide +kernel) (.inl ⟨_, List.mem_singleton.mpr rfl⟩)

/-- Why **C79** is partial: the socket of client 7 reports an error (as after an ICMP message "port unreachable"), which the server
ignores without arming the socket again. The acknowledgement which arrives 6 iterations later while the server sleeps for 14 milliseconds
is not reported. -/
theorem c79_error_delays :
    Spec.sleeps oneSrv 0 (sleeping [.client 7 .err]) 8 14 ∧
    ((Spec.atWait oneSrv 0 (sleeping [.client 7 .err]) 8).sock 7).isSome = true ∧
    Spec.reported oneSrv 0 (sleeping [.client 7 .err]) 8 = [] := by
  have hp : (oneSrv.pout 0 (sleeping [.client 7 .err]) 8).map (·.out.polled) = some (some (some 14)) := by decide +kernel
  obtain ⟨o, ho, hp⟩ := Option.map_eq_some_iff.mp hp
  exact ⟨⟨o, ho, hp⟩, by decide +kernel, by decide +kernel⟩

end Toy
end Tftp

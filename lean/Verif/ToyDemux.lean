import Verif.Demux
import Verif.ToyMulti
import Verif.EndPieces
/- C86: a datagram of somebody else becomes the file. -/
namespace Tftp
namespace Toy

/-- Somebody else's block. -/
def foreign : Bytes := [0, 3, 0, 1, 66]

/-- The server after the request of client 7. -/
theorem wrq_joins : (srv.step ⟨[], 0⟩ (.main 0 7 wrq io)).1 = ⟨[(7, writer 0)], 0⟩ := by
  simp only [Srv.step, List.any_nil, Bool.false_eq_true, ↓reduceIte, List.length_nil, wrq_accepted]
  rfl

/-- The sockets when the request of client 7 has arrived. -/
def asked7 : Host SrvSt := ⟨⟨[], 0⟩, fun j => if j = 0 then some ⟨69, none, none, [(7, wrq)]⟩ else if j = 0 then some ⟨69, none, none, []⟩ else none, 1, []⟩

/-- Its socket is bound. -/
def bound7 : Host SrvSt :=
  ⟨⟨[(7, writer 0)], 0⟩, fun j => if j = 1 then some ⟨69, some 7, none, []⟩ else if j = 0 then some ⟨69, none, none, []⟩ else none, 2, []⟩

theorem binds7 : (srv.process.hostStep asked7 (.main 0 io 69)).2 = some (.main 0 7 wrq io, some 7) ∧
    (srv.process.hostStep asked7 (.main 0 io 69)).1 = bound7 := by
  have hc : (srv.process.conn asked7.srv 7).isNone ∧ (srv.process.conn (srv.process.step asked7.srv (srv.process.main 0 7 wrq io)) 7).isSome := by
    refine ⟨rfl, ?_⟩
    show (SrvSt.conn (srv.step ⟨[], 0⟩ (.main 0 7 wrq io)).1 7).isSome
    rw [wrq_joins]
    rfl
  have h0 : asked7.sock 0 = some ⟨69, none, none, [(7, wrq)]⟩ := rfl
  simp only [Process.hostStep, h0, hc, and_self, ↓reduceIte]
  refine ⟨rfl, ?_⟩
  unfold bound7
  congr 1
  · exact wrq_joins
  · funext j
    by_cases h1 : j = 1
    · subst h1; rfl
    · by_cases h2 : j = 0
      · subst h2; rfl
      · simp only [h1, h2, ↓reduceIte, closeOld, asked7]

/-- A block from address 8 arrives; then the socket is connected and read. -/
def stolen : Host SrvSt := (srv.process.hostStep (srv.process.hostStep (srv.process.hostStep bound7 (.arrive 69 8 foreign (some 1))).1 (.connect 1)).1 (.recv 1 1 rio)).1

/-- **C86** is false without its exception, and the hypotheses of `c86_single_thread_partial` and `c86_single_thread_delivery` are met by it: client 7 asks to write a file. Between
`bind` and `connect` of the socket of its connection a datagram from address 8 arrives. It is a block of data: it is handled as client 7's, and it is the
last: the upload is complete, with the contents which address 8 has chosen. -/
theorem c86_stolen : Spec.HostRun srv.process ⟨[], 0⟩ 69 stolen
      [(.main 0 7 wrq io, some 7), (.client 1 7 foreign rio, some 8)] ∧
    (stolen.srv.conn 7).map (fun c => match c.side with | .writer s => (s.w.out, c.finished) | _ => ([], false)) = some ([66], true) := by
  refine ⟨?_, by decide +kernel⟩
  have r0 : Spec.HostRun srv.process ⟨[], 0⟩ 69 asked7 [] :=
    .step _ _ (.arrive 69 7 wrq (some 0)) .init (fun i hi => by
      cases hi
      refine ⟨_, rfl, rfl, .inr ⟨rfl, fun j k' hj _ => ?_⟩⟩
      simp only [Host.init] at hj
      split at hj
      · cases hj; exact fun h => by cases h
      · cases hj)
  have r1 := Spec.HostRun.step _ _ (.main 0 io 69) r0 (.inl rfl)
  rw [binds7.1, binds7.2] at r1
  have r2 := Spec.HostRun.step _ _ (.arrive 69 8 foreign (some 1)) r1 (fun i hi => by
      cases hi
      refine ⟨_, rfl, rfl, .inr ⟨rfl, fun j k' hj _ => ?_⟩⟩
      simp only [bound7] at hj
      split at hj
      · cases hj; exact fun h => by cases h
      · split at hj
        · cases hj; exact fun h => by cases h
        · cases hj)
  exact .step _ _ (.recv 1 1 rio) (.step _ _ (.connect 1) r2 trivial) trivial

/-- The exception of `c86_single_thread_partial` here. -/
example : stolen.strays = [(7, 8, foreign)] := rfl

/-- `c86_single_thread_delivery`: from now on nobody else's datagrams are handled as client 7's, and only its socket gets client 7's. -/
example (j : Nat) : Spec.Takes stolen j 69 7 ↔ j = 1 := by
  obtain ⟨i, k, h1, h2, h3, h4⟩ := c86_single_thread_delivery srv 69 c86_stolen.1 7 (by decide +kernel)
  have hs : stolen.sock 1 = some ⟨69, some 7, some 7, []⟩ := by decide +kernel
  have := h3 1 _ hs rfl
  subst this
  rw [hs] at h1
  cases h1
  exact h4 rfl j

end Toy

/-- **C86** (sealed sessions): a stray datagram which does not open under the keys of the connection changes nothing and is not answered. -/
theorem c86_sealed_stray {S} (v : Srv S) {s : SrvSt} (hs : s.addrs.Nodup) {a : Addr} {c : Conn} (hc : s.conn a = some c) (t : Nat) (dg : Bytes)
    (io : RecvIo) (hd : (v.transfer c).codec.dec dg = none) : v.step s (.client t a dg io) = (s, []) := by
  have key : ∀ x ∈ s.clients, x.1 = a → x = (a, c) := by
    intro x hx hxa
    have := (conn_iff hs).mpr (show (a, x.2) ∈ s.clients from by rw [← hxa]; exact hx)
    rw [hc] at this
    cases this
    rw [← hxa]
  have e1 : (s.clients.map fun x => if x.1 = a then (a, (v.handle x.2 t dg io).1) else x) = s.clients := by
    refine (List.map_congr_left (g := id) fun x hx => ?_).trans (List.map_id _)
    by_cases hxa : x.1 = a
    · rw [key x hx hxa]; simp only [↓reduceIte, handle_forged v c t dg io hd, id]
    · simp only [hxa, ↓reduceIte, id]
  have e2 : (s.clients.flatMap fun x => if x.1 = a then (v.handle x.2 t dg io).2.toList.map (a, ·) else []) = [] := by
    rw [List.flatMap_eq_nil_iff]
    intro x hx
    by_cases hxa : x.1 = a
    · rw [key x hx hxa]; simp only [↓reduceIte, handle_forged v c t dg io hd]; rfl
    · simp only [hxa, ↓reduceIte]
  simp only [Srv.step, e1, e2]

end Tftp

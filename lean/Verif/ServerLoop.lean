import Verif.ServerFair
/-
The main loop of the single threaded server (src/server/single_thread.rs:146-416): the order of checks, sending turns and
receiving turns, the pointer to the next client to receive from and the idle wait (src/server/wait_control.rs).
C47 (receiving is fair), C38 (idle clients are removed in time), C45 (the idle wait is bounded).
-/
namespace Tftp

/-- src/server/wait_control.rs:3-7 `WaitControl`. -/
structure Wait where
  idle : UInt8
  sending : Bool
  receiving : Bool

/-- src/server/wait_control.rs:10-16 `new`. -/
def Wait.new : Wait := ⟨0, false, false⟩

/-- src/server/wait_control.rs:18-26 `sending`. -/
def Wait.sent (w : Wait) (sent : Bool) : Wait :=
  if sent then { w with idle := 0, sending := true } else { w with idle := w.idle + 1, sending := false }

/-- src/server/wait_control.rs:28-31 `receiver_idle`. -/
def Wait.receiverIdle (w : Wait) : Wait := { w with idle := w.idle + 1, receiving := false }

/-- src/server/wait_control.rs:33-36 `receiving`. -/
def Wait.received (w : Wait) : Wait := { w with idle := 0, receiving := true }

/-- src/server/wait_control.rs:38-46 `wait_for`, in milliseconds; `none`: do not wait. -/
def Wait.time (w : Wait) (clients : Nat) : Option Nat :=
  if clients = 0 then some 500 else if !w.sending && !w.receiving then some w.idle.toNat else none

/-- State of the loop: src/server/single_thread.rs:116-119, 129. -/
structure LoopSt where
  srv : SrvSt
  lastCheck : Nat
  nextRecv : Nat
  wait : Wait

/-- The outside of one iteration: the time at the check, at the sending turn and when a datagram is handled; the behaviour of
files and sockets; the datagram waiting on each client's socket (`none`: not notified, or nothing can be received); the
datagram on the main socket, if one arrives within the wait. An error of the main socket ends the server; that is left out. -/
structure Turn where
  tp : Nat
  ts : Nat
  tr : Nat
  pio : Addr → RecvIo
  sio : Addr → SendIo
  ready : Addr → Option Bytes
  rio : RecvIo
  main : Option (Addr × Bytes × NewIo)

/-- What an iteration did: the client whose socket was read; the wait on the main socket if that was polled; the events. -/
structure TurnOut where
  read : Option Addr
  polled : Option (Option Nat)
  evs : List SrvEv

/-- src/server/single_thread.rs:171-194: ask the clients from position `n` on (the list given) for a datagram. -/
def pollClients (ready : Addr → Option Bytes) : Nat → List (Addr × Conn) → Option (Addr × Bytes) × Nat
  | n, [] => (none, n)
  | n, (a, _) :: r => match ready a with
    | some d => (some (a, d), n + 1)
    | none => pollClients ready (n + 1) r

/-- src/server/single_thread.rs:149-154. -/
def Srv.check {S} (v : Srv S) (L : LoopSt) (i : Turn) : LoopSt :=
  if i.tp - L.lastCheck > 2000 then { L with srv := (v.step L.srv (.purge i.tp i.pio)).1, lastCheck := i.tp } else L

/-- One iteration of src/server/single_thread.rs:146-416. -/
def Srv.iter {S} (v : Srv S) (L : LoopSt) (i : Turn) : LoopSt × TurnOut :=
  let e1 : List SrvEv := if i.tp - L.lastCheck > 2000 then [.purge i.tp i.pio] else []
  let L := v.check L i
  let (s, sent, _) := v.sendRound L.srv i.ts i.sio
  let w := L.wait.sent sent.isSome
  let e2 := e1 ++ [SrvEv.round i.ts i.sio]
  match pollClients i.ready L.nextRecv (s.clients.drop L.nextRecv) with
  | (some (a, d), n) =>
    (⟨(v.step s (.client i.tr a d i.rio)).1, L.lastCheck, n, w.received⟩, ⟨some a, none, e2 ++ [.client i.tr a d i.rio]⟩)
  | (none, _) =>
    let polled := w.time s.clients.length
    match i.main with
    | none => (⟨s, L.lastCheck, 0, w.receiverIdle⟩, ⟨none, some polled, e2⟩)
    | some (a, d, io) =>
      if s.clients.any (fun x => x.1 == a) then (⟨s, L.lastCheck, 0, w⟩, ⟨none, some polled, e2⟩)
      else (⟨(v.step s (.main i.tr a d io)).1, L.lastCheck, 0, w.received⟩, ⟨none, some polled, e2 ++ [.main i.tr a d io]⟩)

/-- The loop, started at time `t0`: the state after a list of iterations. -/
def Srv.loop {S} (v : Srv S) (t0 : Nat) (is : List Turn) : LoopSt :=
  is.foldl (fun L i => (v.iter L i).1) ⟨⟨[], 0⟩, t0, 0, Wait.new⟩

/-- The outcome of iteration `k`. -/
def Srv.turn {S} (v : Srv S) (t0 : Nat) (is : List Turn) (k : Nat) : Option TurnOut :=
  is[k]?.map fun i => (v.iter (v.loop t0 (is.take k)) i).2

/-- All events of a list of iterations. -/
def Srv.events {S} (v : Srv S) (t0 : Nat) (is : List Turn) : List SrvEv :=
  (List.range is.length).flatMap fun k => ((v.turn t0 is k).map (·.evs)).getD []

theorem loop_snoc {S} (v : Srv S) (t0 : Nat) (is : List Turn) (i : Turn) :
    v.loop t0 (is ++ [i]) = (v.iter (v.loop t0 is) i).1 := by simp [Srv.loop]

theorem run_append {S} (v : Srv S) (s : SrvSt) (a b : List SrvEv) : v.run s (a ++ b) = v.run (v.run s a) b := by simp [Srv.run]

theorem turn_snoc {S} (v : Srv S) (t0 : Nat) (is : List Turn) (i : Turn) (k : Nat) (h : k < is.length) :
    v.turn t0 (is ++ [i]) k = v.turn t0 is k := by
  unfold Srv.turn
  rw [List.getElem?_append_left h, List.take_append_of_le_length (by omega)]

theorem events_snoc {S} (v : Srv S) (t0 : Nat) (is : List Turn) (i : Turn) :
    v.events t0 (is ++ [i]) = v.events t0 is ++ (v.iter (v.loop t0 is) i).2.evs := by
  unfold Srv.events
  rw [List.length_append, List.length_singleton, List.range_succ, List.flatMap_append]
  congr 1
  · have : ∀ l : List Nat, (∀ k ∈ l, k < is.length) → l.flatMap (fun k => ((v.turn t0 (is ++ [i]) k).map (·.evs)).getD []) =
        l.flatMap (fun k => ((v.turn t0 is k).map (·.evs)).getD []) := by
      intro l
      induction l with
      | nil => intro _; rfl
      | cons k l ih =>
        intro h
        rw [List.flatMap_cons, List.flatMap_cons, ih (fun k hk => h k (List.mem_cons_of_mem _ hk)),
          turn_snoc v t0 is i k (h k (by simp))]
    exact this _ (fun k hk => List.mem_range.mp hk)
  · simp [Srv.turn]

/-- The iterations are made of the events the theorems about histories speak of. -/
theorem iter_run {S} (v : Srv S) (L : LoopSt) (i : Turn) : (v.iter L i).1.srv = v.run L.srv (v.iter L i).2.evs := by
  have h1 : (v.check L i).srv = v.run L.srv (if i.tp - L.lastCheck > 2000 then [.purge i.tp i.pio] else []) := by
    unfold Srv.check
    split <;> rfl
  have h2 : (v.sendRound (v.check L i).srv i.ts i.sio).1 =
      v.run L.srv ((if i.tp - L.lastCheck > 2000 then [.purge i.tp i.pio] else []) ++ [SrvEv.round i.ts i.sio]) := by
    rw [run_append, ← h1]; rfl
  unfold Srv.iter
  simp only
  split
  · simp only; rw [run_append, ← h2]; rfl
  · split
    · simp only; rw [← h2]
    · split
      · simp only; rw [← h2]
      · simp only; rw [run_append, ← h2]; rfl

/-- Every state of the server's loop is the state after a history of events, so the theorems about histories (C16, C22, C23,
C24, C38, C39) hold for the loop. -/
theorem loop_is_history {S} (v : Srv S) (t0 : Nat) (is : List Turn) :
    (v.loop t0 is).srv = v.run ⟨[], 0⟩ (v.events t0 is) := by
  induction is using snoc_induction with
  | nil => rfl
  | snoc is i ih => rw [loop_snoc, iter_run, events_snoc, run_append, ih]

/-! ### C45: idle wait -/

/-- **C45**: the loop never waits longer than half a second for a new client; while there are clients it waits at most 255 ms,
and it does not wait at all after an iteration in which a block was sent or a datagram received. -/
theorem c45_idle_wait {S} (v : Srv S) (L : LoopSt) (i : Turn) (w : Option Nat) (h : (v.iter L i).2.polled = some w) :
    (∀ n, w = some n → n ≤ 500 ∧ ((v.sendRound (v.check L i).srv i.ts i.sio).1.clients ≠ [] → n ≤ 255)) ∧
    ((v.sendRound (v.check L i).srv i.ts i.sio).1.clients ≠ [] →
      (v.sendRound (v.check L i).srv i.ts i.sio).2.1.isSome ∨ L.wait.receiving = true → w = none) := by
  have hw : w = ((v.check L i).wait.sent (v.sendRound (v.check L i).srv i.ts i.sio).2.1.isSome).time
      (v.sendRound (v.check L i).srv i.ts i.sio).1.clients.length := by
    unfold Srv.iter at h
    simp only at h
    split at h
    · cases h
    · split at h
      · cases h; rfl
      · split at h <;> (cases h; rfl)
  have hc : (v.check L i).wait = L.wait := by unfold Srv.check; split <;> rfl
  rw [hc] at hw
  generalize hx : (v.sendRound (v.check L i).srv i.ts i.sio) = x at hw
  refine ⟨?_, ?_⟩
  · intro n hn
    rw [hw] at hn
    unfold Wait.time at hn
    split at hn
    · rename_i h0
      simp only [Option.some.injEq] at hn
      refine ⟨by omega, fun hne => absurd (List.length_eq_zero_iff.mp h0) hne⟩
    · split at hn
      · simp only [Option.some.injEq] at hn
        have := (L.wait.sent x.2.1.isSome).idle.toNat_lt
        exact ⟨by omega, fun _ => by omega⟩
      · cases hn
  · intro hne hs
    rw [hw]
    unfold Wait.time
    rw [if_neg (fun h => hne (List.length_eq_zero_iff.mp h)), if_neg]
    rcases hs with hs | hs
    · simp [Wait.sent, hs]
    · unfold Wait.sent; split <;> simp [hs]

/-- Being idle the server does not stay at a long wait: the counter wraps around (src/server/wait_control.rs:23), so that after 255
idle milliseconds the wait starts again at 0. -/
theorem c45_idle_wraps : (Wait.receiverIdle ⟨255, false, false⟩).time 1 = some 0 := rfl

/-! ### C38: removal in time -/

/-- The times of the iterations do not decrease. -/
def Spec.Clock (t0 : Nat) : List Turn → Prop
  | [] => True
  | i :: is => t0 ≤ i.tp ∧ i.tp ≤ i.ts ∧ i.ts ≤ i.tr ∧ Spec.Clock i.tr is

theorem clock_snoc {t0 : Nat} {is : List Turn} {i : Turn} : Spec.Clock t0 (is ++ [i]) ↔
    Spec.Clock t0 is ∧ (is.getLast?.map (·.tr)).getD t0 ≤ i.tp ∧ i.tp ≤ i.ts ∧ i.ts ≤ i.tr := by
  induction is generalizing t0 with
  | nil => simp [Spec.Clock]
  | cons j is ih =>
    simp only [List.cons_append, Spec.Clock, ih]
    cases is with
    | nil => simp [and_assoc]
    | cons k is =>
      simp only [List.getLast?_cons_cons]
      rw [show ((k :: is).getLast?.map (·.tr)).getD j.tr = ((k :: is).getLast?.map (·.tr)).getD t0 from by
        rw [List.getLast?_cons]; rfl]
      simp only [and_assoc]

/-- Times of the last update after an event: kept or set to the time of the event. -/
theorem step_updated {S} (v : Srv S) (s : SrvSt) (hs : s.addrs.Nodup) (e : SrvEv) (hs' : (v.step s e).1.addrs.Nodup) (a : Addr)
    (c : Conn) (h : (v.step s e).1.conn a = some c) :
    c.lastUpdated = e.time ∨ ∃ c0, s.conn a = some c0 ∧ c.lastUpdated = c0.lastUpdated := by
  cases h0 : s.conn a with
  | none => exact .inl (created_at v s e a c hs' h0 h)
  | some c0 =>
    obtain ⟨h1, h2⟩ := c38_clock v s hs e a c0 c h0 h
    by_cases hp : Spec.Progress c0 c
    · exact .inl (h1 hp)
    · exact .inr ⟨c0, rfl, h2 hp⟩

theorem step_nodup {S} (v : Srv S) (s : SrvSt) (hs : s.addrs.Nodup) (e : SrvEv) : (v.step s e).1.addrs.Nodup := by
  rcases step_addrs v s e with h1 | ⟨a, h1, h2, h3⟩
  · exact h1.nodup hs
  · exact h3.nodup_iff.mpr (List.nodup_cons.mpr ⟨h1, hs⟩)

/-- All clients were updated no longer than `d` before `t`. -/
def FreshAt (s : SrvSt) (t d : Nat) : Prop := s.addrs.Nodup ∧ ∀ a c, s.conn a = some c → t ≤ c.lastUpdated + d

theorem freshAt_step {S} (v : Srv S) {s : SrvSt} {t d : Nat} (h : FreshAt s t d) (e : SrvEv) (he : t ≤ e.time) :
    FreshAt (v.step s e).1 t d := by
  refine ⟨step_nodup v s h.1 e, ?_⟩
  intro a c hc
  rcases step_updated v s h.1 e (step_nodup v s h.1 e) a c hc with h1 | ⟨c0, h1, h2⟩
  · omega
  · rw [h2]; exact h.2 a c0 h1

theorem freshAt_purge {S} (v : Srv S) {s : SrvSt} (hs : s.addrs.Nodup) (t : Nat) (io : Addr → RecvIo) :
    FreshAt (v.step s (.purge t io)).1 t v.cfg.requestTimeout := by
  refine ⟨step_nodup v s hs _, ?_⟩
  intro a c hc
  have hm := (conn_iff (step_nodup v s hs _)).mp hc
  simp only [Srv.step, List.mem_filter] at hm
  have := hm.2
  unfold Srv.timeout at this
  split at this
  · simp at this
  · split at this
    · omega
    · simp at this

theorem check_fresh {S} (v : Srv S) {L : LoopSt} {i : Turn} {d : Nat} (hd : d = v.cfg.requestTimeout)
    (h : FreshAt L.srv L.lastCheck d) : FreshAt (v.check L i).srv (v.check L i).lastCheck d ∧
      i.tp ≤ (v.check L i).lastCheck + 2000 := by
  unfold Srv.check
  split
  · exact ⟨by rw [hd]; exact freshAt_purge v h.1 _ _, by simp only; omega⟩
  · exact ⟨h, by omega⟩

theorem iter_fresh {S} (v : Srv S) {L : LoopSt} {i : Turn} {d : Nat} (hd : d = v.cfg.requestTimeout)
    (h : FreshAt L.srv L.lastCheck d) (h1 : L.lastCheck ≤ i.tp) (h2 : i.tp ≤ i.ts) (h3 : i.ts ≤ i.tr) :
    FreshAt (v.iter L i).1.srv (v.iter L i).1.lastCheck d ∧ (v.iter L i).1.lastCheck ≤ i.tp := by
  have hc := (check_fresh v (i := i) hd h).1
  have hl : (v.check L i).lastCheck ≤ i.tp := by unfold Srv.check; split <;> simp_all
  have hr : FreshAt (v.sendRound (v.check L i).srv i.ts i.sio).1 (v.check L i).lastCheck d :=
    freshAt_step v hc (.round i.ts i.sio) (Nat.le_trans hl h2)
  unfold Srv.iter
  simp only
  split
  · exact ⟨freshAt_step v hr _ (by simp only [SrvEv.time]; omega), hl⟩
  · split
    · exact ⟨hr, hl⟩
    · split
      · exact ⟨hr, hl⟩
      · exact ⟨freshAt_step v hr _ (by simp only [SrvEv.time]; omega), hl⟩

theorem loop_fresh {S} (v : Srv S) (t0 : Nat) (is : List Turn) (h : Spec.Clock t0 is) :
    FreshAt (v.loop t0 is).srv (v.loop t0 is).lastCheck v.cfg.requestTimeout ∧
    (v.loop t0 is).lastCheck ≤ (is.getLast?.map (·.tr)).getD t0 := by
  induction is using snoc_induction with
  | nil => exact ⟨⟨List.nodup_nil, fun a c hc => by cases hc⟩, Nat.le_refl _⟩
  | snoc is i ih =>
    obtain ⟨h0, h1, h2, h3⟩ := clock_snoc.mp h
    obtain ⟨g1, g2⟩ := ih h0
    rw [loop_snoc]
    obtain ⟨k1, k2⟩ := iter_fresh v (i := i) rfl g1 (by omega) h2 h3
    refine ⟨k1, ?_⟩
    simp only [List.getLast?_append, List.getLast?_singleton, Option.some_or, Option.map_some, Option.getD_some]
    omega

/-- **C38**, in time: whatever happens, when an iteration has done its check, every client in the table was created or made
progress within the last request timeout plus two seconds. (`check` is the first part of an iteration.) -/
theorem c38_removed_in_time {S} (v : Srv S) (t0 : Nat) (is : List Turn) (i : Turn) (h : Spec.Clock t0 (is ++ [i]))
    (a : Addr) (c : Conn) (hc : (v.check (v.loop t0 is) i).srv.conn a = some c) :
    ∃ u evs, Spec.LastProgress v a evs u ∧ (v.check (v.loop t0 is) i).srv = v.run ⟨[], 0⟩ evs ∧
      i.tp ≤ u + v.cfg.requestTimeout + 2000 := by
  obtain ⟨h0, -⟩ := clock_snoc.mp h
  have hf := check_fresh v (i := i) rfl (loop_fresh v t0 is h0).1
  have hrun : ∃ evs, (v.check (v.loop t0 is) i).srv = v.run ⟨[], 0⟩ evs := by
    refine ⟨v.events t0 is ++ (if i.tp - (v.loop t0 is).lastCheck > 2000 then [.purge i.tp i.pio] else []), ?_⟩
    rw [run_append, ← loop_is_history]
    unfold Srv.check
    split <;> rfl
  obtain ⟨evs, hrun⟩ := hrun
  refine ⟨c.lastUpdated, evs, c38_last_progress v evs a c (by rw [← hrun]; exact hc), hrun, ?_⟩
  have := hf.1.2 a c hc
  have := hf.2
  omega

/-! ### C47: receiving -/

theorem pollClients_some {ready : Addr → Option Bytes} {n m : Nat} {l : List (Addr × Conn)} {a : Addr} {d : Bytes}
    (h : pollClients ready n l = (some (a, d), m)) :
    ∃ k, (l.map (·.1))[k]? = some a ∧ m = n + k + 1 ∧ ∀ j b, j < k → (l.map (·.1))[j]? = some b → ready b = none := by
  induction l generalizing n with
  | nil => cases h
  | cons x r ih =>
    obtain ⟨b, c⟩ := x
    unfold pollClients at h
    split at h
    · rename_i hr
      simp only [Prod.mk.injEq, Option.some.injEq] at h
      obtain ⟨⟨rfl, rfl⟩, rfl⟩ := h
      exact ⟨0, rfl, rfl, fun j b hj => by omega⟩
    · rename_i hr
      obtain ⟨k, h1, h2, h3⟩ := ih h
      refine ⟨k + 1, by simpa using h1, by omega, ?_⟩
      intro j b' hj hb
      cases j with
      | zero => simp only [List.map_cons, List.getElem?_cons_zero, Option.some.injEq] at hb; subst hb; exact hr
      | succ j => exact h3 j b' (by omega) (by simpa using hb)

theorem pollClients_none {ready : Addr → Option Bytes} {n m : Nat} {l : List (Addr × Conn)}
    (h : pollClients ready n l = (none, m)) : ∀ b ∈ l.map (·.1), ready b = none := by
  induction l generalizing n with
  | nil => simp
  | cons x r ih =>
    obtain ⟨b, c⟩ := x
    unfold pollClients at h
    split at h
    · cases h
    · rename_i hr
      intro b' hb
      rcases List.mem_cons.mp hb with rfl | hb
      · exact hr
      · exact ih h b' hb

/-- The addresses an iteration finds in the table after its check. -/
def Srv.seen {S} (v : Srv S) (L : LoopSt) (i : Turn) : List Addr := (v.check L i).srv.addrs

theorem client_addrs {S} (v : Srv S) (s : SrvSt) (t : Nat) (a : Addr) (dg : Bytes) (io : RecvIo) :
    (v.step s (.client t a dg io)).1.addrs = s.addrs := by
  simp only [Srv.step, SrvSt.addrs, List.map_map]
  apply List.map_congr_left
  intro x _
  simp only [Function.comp]
  split
  · rename_i h; exact h.symm
  · rfl

/-- An iteration which reads from a client. -/
theorem iter_read {S} (v : Srv S) (L : LoopSt) (i : Turn) (a : Addr) (h : (v.iter L i).2.read = some a) :
    (v.iter L i).2.polled = none ∧ (v.iter L i).1.srv.addrs = v.seen L i ∧
    ∃ k, (v.seen L i)[k]? = some a ∧ L.nextRecv ≤ k ∧ (v.iter L i).1.nextRecv = k + 1 ∧
      ∀ j b, L.nextRecv ≤ j → j < k → (v.seen L i)[j]? = some b → i.ready b = none := by
  have hn : (v.check L i).nextRecv = L.nextRecv := by unfold Srv.check; split <;> rfl
  have hs : v.seen L i = (v.sendRound (v.check L i).srv i.ts i.sio).1.addrs := (sendRound_addrs v _ _ _).symm
  have hx : pollClients i.ready (v.check L i).nextRecv ((v.sendRound (v.check L i).srv i.ts i.sio).1.clients.drop
      (v.check L i).nextRecv) = pollClients i.ready L.nextRecv ((v.sendRound (v.check L i).srv i.ts i.sio).1.clients.drop
      L.nextRecv) := by rw [hn]
  unfold Srv.iter at h ⊢
  simp only [hx] at h ⊢
  rw [hs]
  split at h
  · rename_i b d n hp
    simp only [Option.some.injEq] at h
    subst h
    obtain ⟨k, h1, h2, h3⟩ := pollClients_some hp
    rw [List.map_drop, List.getElem?_drop] at h1
    refine ⟨rfl, client_addrs _ _ _ _ _ _, L.nextRecv + k, h1, by omega, h2, ?_⟩
    intro j b' hj1 hj2 hb
    refine h3 (j - L.nextRecv) b' (by omega) ?_
    rw [List.map_drop, List.getElem?_drop, show L.nextRecv + (j - L.nextRecv) = j from by omega]
    exact hb
  · split at h
    · cases h
    · split at h <;> cases h

/-- An iteration which does not read from a client polls the main socket, and starts over. -/
theorem iter_polled {S} (v : Srv S) (L : LoopSt) (i : Turn) (h : (v.iter L i).2.read = none) :
    (v.iter L i).2.polled ≠ none ∧ (v.iter L i).1.nextRecv = 0 ∧
    ∀ j b, L.nextRecv ≤ j → (v.seen L i)[j]? = some b → i.ready b = none := by
  have hn : (v.check L i).nextRecv = L.nextRecv := by unfold Srv.check; split <;> rfl
  have hs : v.seen L i = (v.sendRound (v.check L i).srv i.ts i.sio).1.addrs := (sendRound_addrs v _ _ _).symm
  have hx : pollClients i.ready (v.check L i).nextRecv ((v.sendRound (v.check L i).srv i.ts i.sio).1.clients.drop
      (v.check L i).nextRecv) = pollClients i.ready L.nextRecv ((v.sendRound (v.check L i).srv i.ts i.sio).1.clients.drop
      L.nextRecv) := by rw [hn]
  unfold Srv.iter at h ⊢
  simp only [hx] at h ⊢
  rw [hs]
  split at h
  · cases h
  · rename_i n hp
    have key : ∀ j b, L.nextRecv ≤ j → (v.sendRound (v.check L i).srv i.ts i.sio).1.addrs[j]? = some b → i.ready b = none := by
      intro j b hj hb
      refine pollClients_none hp b ?_
      rw [List.map_drop]
      refine List.mem_of_getElem? (i := j - L.nextRecv) ?_
      rw [List.getElem?_drop, show L.nextRecv + (j - L.nextRecv) = j from by omega]
      exact hb
    split
    · exact ⟨by simp, rfl, key⟩
    · split <;> exact ⟨by simp, rfl, key⟩

theorem check_sublist {S} (v : Srv S) (L : LoopSt) (i : Turn) : (v.seen L i).Sublist L.srv.addrs := by
  unfold Srv.seen Srv.check
  split
  · exact List.filter_sublist.map _
  · exact .refl _

theorem sublist_index {l' l : List Addr} (h : l'.Sublist l) {k : Nat} {a : Addr} (hk : l'[k]? = some a) :
    ∃ j, k ≤ j ∧ l[j]? = some a := by
  induction h generalizing k with
  | slnil => cases hk
  | cons x _ ih => obtain ⟨j, h1, h2⟩ := ih hk; exact ⟨j + 1, by omega, by simpa using h2⟩
  | cons_cons x _ ih =>
    cases k with
    | zero => exact ⟨0, Nat.le_refl _, by simpa using hk⟩
    | succ k => obtain ⟨j, h1, h2⟩ := ih (by simpa using hk); exact ⟨j + 1, by omega, by simpa using h2⟩

/-- Specification: the client read in iteration `k`; `none` means that the main socket was polled. -/
def Spec.read {S} (v : Srv S) (t0 : Nat) (is : List Turn) (k : Nat) : Option Addr := (v.turn t0 is k).bind (·.read)

theorem loop_take_succ {S} (v : Srv S) (t0 : Nat) (is : List Turn) (k : Nat) (i : Turn) (h : is[k]? = some i) :
    v.loop t0 (is.take (k + 1)) = (v.iter (v.loop t0 (is.take k)) i).1 := by
  rw [List.take_succ_eq_append_getElem (List.getElem?_eq_some_iff.mp h).1, (List.getElem?_eq_some_iff.mp h).2, loop_snoc]

theorem read_eq {S} (v : Srv S) (t0 : Nat) (is : List Turn) (k : Nat) (i : Turn) (h : is[k]? = some i) :
    Spec.read v t0 is k = (v.iter (v.loop t0 (is.take k)) i).2.read := by simp [Spec.read, Srv.turn, h]

/-- **C47**, the main socket: among `max_connections + 1` consecutive iterations of the loop at least one polls the main socket, so
that clients already connected can not keep the server from seeing new ones. -/
theorem c47_main_socket_polled {S} (v : Srv S) (t0 : Nat) (is : List Turn) (s : Nat) (h : s + v.maxConn < is.length) :
    ∃ k o, s ≤ k ∧ k ≤ s + v.maxConn ∧ v.turn t0 is k = some o ∧ o.polled ≠ none := by
  have get : ∀ k, k < is.length → ∃ i, is[k]? = some i := fun k hk => ⟨_, List.getElem?_eq_getElem hk⟩
  apply Classical.byContradiction
  intro hno
  have hread : ∀ k, s ≤ k → k ≤ s + v.maxConn → ∃ a, Spec.read v t0 is k = some a := by
    intro k h1 h2
    obtain ⟨i, hi⟩ := get k (by omega)
    cases hr : Spec.read v t0 is k with
    | some a => exact ⟨a, rfl⟩
    | none =>
      rw [read_eq v t0 is k i hi] at hr
      exact absurd ⟨k, _, h1, h2, by simp [Srv.turn, hi], (iter_polled v _ i hr).1⟩ hno
  have hcount : ∀ m, m ≤ v.maxConn + 1 → m ≤ (v.loop t0 (is.take (s + m))).nextRecv := by
    intro m
    induction m with
    | zero => intro _; omega
    | succ m ih =>
      intro hm
      obtain ⟨i, hi⟩ := get (s + m) (by omega)
      obtain ⟨a, ha⟩ := hread (s + m) (by omega) (by omega)
      rw [read_eq v t0 is _ i hi] at ha
      obtain ⟨-, -, k, -, h2, h3, -⟩ := iter_read v _ i a ha
      rw [show s + (m + 1) = (s + m) + 1 from by omega, loop_take_succ v t0 is _ i hi, h3]
      have := ih (by omega)
      omega
  obtain ⟨i, hi⟩ := get (s + v.maxConn) h
  obtain ⟨a, ha⟩ := hread (s + v.maxConn) (by omega) (by omega)
  rw [read_eq v t0 is _ i hi] at ha
  obtain ⟨-, -, k, h1, h2, -, -⟩ := iter_read v _ i a ha
  have hk := (List.getElem?_eq_some_iff.mp h1).1
  have hl := (check_sublist v (v.loop t0 (is.take (s + v.maxConn))) i).length_le
  have hb : (v.loop t0 (is.take (s + v.maxConn))).srv.addrs.length ≤ v.maxConn := by
    rw [loop_is_history]
    simpa [SrvSt.addrs] using (c22_table_bound v (v.events t0 (is.take (s + v.maxConn)))).1
  have := hcount v.maxConn (by omega)
  omega

/-- **C47**, one datagram per client: between two polls of the main socket no client is read twice, whatever the clients send and
whoever is dropped meanwhile. -/
theorem c47_one_read_per_client {S} (v : Srv S) (t0 : Nat) (is : List Turn) (i j : Nat) (a : Addr) (hij : i < j)
    (hi : Spec.read v t0 is i = some a) (hmid : ∀ k, i ≤ k → k ≤ j → Spec.read v t0 is k ≠ none) :
    Spec.read v t0 is j ≠ some a := by
  have get : ∀ k, i ≤ k → k ≤ j → ∃ x, is[k]? = some x := by
    intro k h1 h2
    cases hx : is[k]? with
    | some x => exact ⟨x, rfl⟩
    | none => exact absurd (by simp [Spec.read, Srv.turn, hx]) (hmid k h1 h2)
  have hnd : ∀ k, (v.loop t0 (is.take k)).srv.addrs.Nodup := by
    intro k; rw [loop_is_history]; exact (c22_table_bound v _).2
  -- the client stays behind the pointer
  have inv : ∀ d, i + 1 + d ≤ j → ∀ p, (v.loop t0 (is.take (i + 1 + d))).srv.addrs[p]? = some a →
      p < (v.loop t0 (is.take (i + 1 + d))).nextRecv := by
    intro d
    induction d with
    | zero =>
      intro _ p hp
      obtain ⟨x, hx⟩ := get i (Nat.le_refl _) (by omega)
      rw [read_eq v t0 is _ x hx] at hi
      obtain ⟨-, h0, k, h1, h2, h3, -⟩ := iter_read v _ x a hi
      rw [Nat.add_zero, loop_take_succ v t0 is i x hx] at hp ⊢
      rw [h0] at hp
      have hn : (v.seen (v.loop t0 (is.take i)) x).Nodup := (check_sublist v _ x).nodup (hnd i)
      have : p = k := by
        have hp' := List.getElem?_eq_some_iff.mp hp
        have hk' := List.getElem?_eq_some_iff.mp h1
        obtain ⟨p1, p2⟩ := hp'
        obtain ⟨k1, k2⟩ := hk'
        exact (List.getElem_inj hn).mp (p2.trans k2.symm)
      omega
    | succ d ih =>
      intro hd p hp
      obtain ⟨x, hx⟩ := get (i + 1 + d) (by omega) (by omega)
      rw [show i + 1 + (d + 1) = (i + 1 + d) + 1 from by omega, loop_take_succ v t0 is _ x hx] at hp ⊢
      obtain ⟨b, hb⟩ := Option.ne_none_iff_exists'.mp (hmid (i + 1 + d) (by omega) (by omega))
      rw [read_eq v t0 is _ x hx] at hb
      obtain ⟨-, h0, k, h1, h2, h3, -⟩ := iter_read v _ x b hb
      rw [h0] at hp
      obtain ⟨q, hq1, hq2⟩ := sublist_index (check_sublist v _ x) hp
      have := ih (by omega) q hq2
      omega
  intro hj
  obtain ⟨x, hx⟩ := get j (by omega) (Nat.le_refl _)
  rw [read_eq v t0 is _ x hx] at hj
  obtain ⟨-, -, k, h1, h2, -, -⟩ := iter_read v _ x a hj
  obtain ⟨q, hq1, hq2⟩ := sublist_index (check_sublist v _ x) h1
  have := inv (j - (i + 1)) (by omega) q (by rw [show i + 1 + (j - (i + 1)) = j from by omega]; exact hq2)
  rw [show i + 1 + (j - (i + 1)) = j from by omega] at this
  omega

/-- **C47**, no client is passed over: if the main socket is polled in the iterations `i` and `j`, and client `y` is in the table
and has a datagram waiting in all iterations after `i` up to `j`, and no client is dropped meanwhile, then `y` is read in
between. -/
theorem c47_every_client_read {S} (v : Srv S) (t0 : Nat) (is : List Turn) (i j : Nat) (y : Addr) (A : List Addr) (hij : i < j)
    (hjl : j < is.length) (hi : Spec.read v t0 is i = none) (hj : Spec.read v t0 is j = none) (hy : y ∈ A)
    (hst : ∀ k x, i < k → k ≤ j → is[k]? = some x → v.seen (v.loop t0 (is.take k)) x = A)
    (hready : ∀ k x, i < k → k ≤ j → is[k]? = some x → x.ready y ≠ none) :
    ∃ k, i < k ∧ k < j ∧ Spec.read v t0 is k = some y := by
  have get : ∀ k, k ≤ j → ∃ x, is[k]? = some x := fun k hk => ⟨_, List.getElem?_eq_getElem (by omega)⟩
  obtain ⟨q, hq⟩ := List.getElem?_of_mem hy
  apply Classical.byContradiction
  intro hno
  have hno : ∀ k, i < k → k < j → Spec.read v t0 is k ≠ some y := fun k h1 h2 h3 => hno ⟨k, h1, h2, h3⟩
  have inv : ∀ d, i + 1 + d ≤ j → (v.loop t0 (is.take (i + 1 + d))).nextRecv ≤ q := by
    intro d
    induction d with
    | zero =>
      intro _
      obtain ⟨x, hx⟩ := get i (by omega)
      rw [read_eq v t0 is _ x hx] at hi
      rw [Nat.add_zero, loop_take_succ v t0 is i x hx, (iter_polled v _ x hi).2.1]
      omega
    | succ d ih =>
      intro hd
      have ih := ih (by omega)
      obtain ⟨x, hx⟩ := get (i + 1 + d) (by omega)
      rw [show i + 1 + (d + 1) = (i + 1 + d) + 1 from by omega, loop_take_succ v t0 is _ x hx]
      cases hb : Spec.read v t0 is (i + 1 + d) with
      | none =>
        rw [read_eq v t0 is _ x hx] at hb
        rw [(iter_polled v _ x hb).2.1]; omega
      | some b =>
        have hby : b ≠ y := fun h => hno (i + 1 + d) (by omega) (by omega) (by rw [hb, h])
        rw [read_eq v t0 is _ x hx] at hb
        obtain ⟨-, -, k, h1, h2, h3, h4⟩ := iter_read v _ x b hb
        rw [hst _ x (by omega) (by omega) hx] at h1 h4
        rw [h3]
        apply Classical.byContradiction
        intro hlt
        by_cases hqk : q = k
        · subst hqk; rw [hq] at h1; cases h1; exact hby rfl
        · exact hready _ x (by omega) (by omega) hx (h4 q y ih (by omega) hq)
  have hq' := inv (j - (i + 1)) (by omega)
  rw [show i + 1 + (j - (i + 1)) = j from by omega] at hq'
  obtain ⟨x, hx⟩ := get j (Nat.le_refl _)
  rw [read_eq v t0 is _ x hx] at hj
  have h3 := (iter_polled v _ x hj).2.2 q y hq'
  rw [hst _ x hij (Nat.le_refl _) hx] at h3
  exact hready _ x hij (Nat.le_refl _) hx (h3 hq)

end Tftp

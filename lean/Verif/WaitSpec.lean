import Verif.ServerLoop
import Verif.Rates
/-
C45, exactly: how long the server waits as a function of what happened before (src/server/wait_control.rs), and what the rate
control does when nothing is acknowledged (src/flow_control.rs:133-135).
-/
namespace Tftp

/-- The calls of src/server/wait_control.rs:18-36 by the server loops (src/server/single_thread.rs:162, 220, 233;
src/server/multi_thread.rs:262, 270, 277). -/
inductive WaitOp
  /-- a sending turn; whether it sent a block -/
  | turn (sent : Bool)
  /-- nothing could be received -/
  | nothing
  /-- a datagram was received -/
  | datagram
deriving DecidableEq

/-- The call. -/
def Wait.op (w : Wait) : WaitOp → Wait
  | .turn b => w.sent b
  | .nothing => w.receiverIdle
  | .datagram => w.received

/-- The wait control after a history of calls, from its creation on. -/
def Wait.after (ops : List WaitOp) : Wait := ops.foldl Wait.op Wait.new

namespace Spec

/-- Did the latest sending turn of the history (the latest call first) send a block? -/
def lastTurnSent : List WaitOp → Bool
  | [] => false
  | .turn b :: _ => b
  | _ :: l => lastTurnSent l

/-- Did the latest attempt to receive get a datagram? -/
def lastReceived : List WaitOp → Bool
  | [] => false
  | .datagram :: _ => true
  | .nothing :: _ => false
  | _ :: l => lastReceived l

/-- The number of fruitless calls since something was sent or received. -/
def fruitless : List WaitOp → Nat
  | .turn false :: l => fruitless l + 1
  | .nothing :: l => fruitless l + 1
  | _ => 0

end Spec

theorem wait_after {ops : List WaitOp} :
    (Wait.after ops).sending = Spec.lastTurnSent ops.reverse ∧ (Wait.after ops).receiving = Spec.lastReceived ops.reverse ∧
    (Wait.after ops).idle.toNat = Spec.fruitless ops.reverse % 256 := by
  induction ops using snoc_induction with
  | nil => exact ⟨rfl, rfl, rfl⟩
  | snoc ops o ih =>
    obtain ⟨h1, h2, h3⟩ := ih
    have e : Wait.after (ops ++ [o]) = (Wait.after ops).op o := by simp [Wait.after]
    rw [e, List.reverse_append, List.reverse_singleton, List.singleton_append]
    cases o with
    | turn b =>
      cases b with
      | true => exact ⟨rfl, h2, rfl⟩
      | false =>
        refine ⟨rfl, h2, ?_⟩
        simp only [Wait.op, Wait.sent, Bool.false_eq_true, if_false, Spec.fruitless, UInt8.toNat_add, h3]
        simp only [UInt8.toNat_one]
        omega
    | nothing =>
      refine ⟨h1, rfl, ?_⟩
      simp only [Wait.op, Wait.receiverIdle, Spec.fruitless, UInt8.toNat_add, h3]
      simp only [UInt8.toNat_one]
      omega
    | datagram => exact ⟨h1, rfl, rfl⟩

/-- **C45**: after every history of sending turns and attempts to receive the server waits, without clients: half a second; with
clients: not at all if the latest turn sent a block or the latest attempt received a datagram, otherwise as many milliseconds
as there have been fruitless calls since (modulo 256). -/
theorem c45_wait_exact (ops : List WaitOp) (clients : Nat) :
    (Wait.after ops).time clients =
      if clients = 0 then some 500
      else if Spec.lastTurnSent ops.reverse ∨ Spec.lastReceived ops.reverse then none
      else some (Spec.fruitless ops.reverse % 256) := by
  obtain ⟨h1, h2, h3⟩ := wait_after (ops := ops)
  unfold Wait.time
  rw [h1, h2, h3]
  split
  · rfl
  · cases Spec.lastTurnSent ops.reverse <;> cases Spec.lastReceived ops.reverse <;> simp

example : (Wait.after [.turn true, .datagram, .turn false, .nothing, .turn false]).time 3 = some 3 := by decide
example : (Wait.after [.nothing, .turn true]).time 3 = none := by decide

/-- The calls made in an iteration of the single threaded loop. -/
def Srv.waitOps {S} (v : Srv S) (L : LoopSt) (i : Turn) : List WaitOp :=
  let x := v.sendRound (v.check L i).srv i.ts i.sio
  .turn x.2.1.isSome ::
    match (pollClients i.ready (v.check L i).nextRecv (x.1.clients.drop (v.check L i).nextRecv)).1 with
    | some _ => [.datagram]
    | none => match i.main with
      | none => [.nothing]
      | some (a, _, _) => if x.1.clients.any (fun x => x.1 == a) then [] else [.datagram]

theorem iter_wait {S} (v : Srv S) (L : LoopSt) (i : Turn) : (v.iter L i).1.wait = (v.waitOps L i).foldl Wait.op L.wait := by
  have hc : (v.check L i).wait = L.wait := by unfold Srv.check; split <;> rfl
  unfold Srv.iter Srv.waitOps
  simp only [hc, List.foldl_cons]
  generalize v.sendRound (v.check L i).srv i.ts i.sio = x
  obtain ⟨s, sent, y⟩ := x
  simp only
  generalize pollClients i.ready (v.check L i).nextRecv (s.clients.drop (v.check L i).nextRecv) = p
  obtain ⟨p, n⟩ := p
  cases p with
  | some q => obtain ⟨a, d⟩ := q; rfl
  | none =>
    simp only
    cases i.main with
    | none => rfl
    | some m =>
      obtain ⟨a, d, io⟩ := m
      simp only
      split <;> rfl

/-- The wait control of the loop is in the state reached by a history of calls, so `c45_wait_exact` speaks about it. -/
theorem loop_wait {S} (v : Srv S) (t0 : Nat) (is : List Turn) :
    (v.loop t0 is).wait = Wait.after ((List.range is.length).flatMap fun k =>
      (is[k]?.map fun i => v.waitOps (v.loop t0 (is.take k)) i).getD []) := by
  induction is using snoc_induction with
  | nil => rfl
  | snoc is i ih =>
    rw [loop_snoc, iter_wait, ih]
    unfold Wait.after
    rw [← List.foldl_append]
    congr 1
    rw [List.length_append, List.length_singleton, List.range_succ, List.flatMap_append]
    congr 1
    · simp only [List.flatMap_def]
      congr 1
      refine List.map_congr_left fun k hk => ?_
      have hk := List.mem_range.mp hk
      rw [List.getElem?_append_left hk, List.take_append_of_le_length (by omega)]
    · simp

/-- **C45**: after an iteration in which the server has read a datagram, the next one does not wait as long as there are clients,
whatever else happens: it polls the main socket at once. -/
theorem c45_no_wait_after_datagram {S} (v : Srv S) (t0 : Nat) (is : List Turn) (k : Nat) (i : Turn) (o o' : TurnOut)
    (ho : v.turn t0 is k = some o) (hi : is[k + 1]? = some i) (ho' : v.turn t0 is (k + 1) = some o')
    (hread : o.read.isSome ∨ ∃ t a d io, SrvEv.main t a d io ∈ o.evs)
    (n : Nat) (hn : o'.polled = some (some n)) :
    (v.sendRound (v.check (v.loop t0 (is.take (k + 1))) i).srv i.ts i.sio).1.clients = [] := by
  refine Classical.byContradiction fun hne => ?_
  unfold Srv.turn at ho ho'
  rw [hi, Option.map_some, Option.some.injEq] at ho'
  subst ho'
  obtain ⟨j, hj, rfl⟩ := Option.map_eq_some_iff.mp ho
  have ht : is.take (k + 1) = is.take k ++ [j] := by rw [List.take_add_one, hj]; rfl
  have hr : (v.loop t0 (is.take (k + 1))).wait.receiving = true := by
    rw [ht, loop_snoc]
    generalize v.loop t0 (is.take k) = L at hread
    unfold Srv.iter at hread ⊢
    simp only at hread ⊢
    split
    · rfl
    · split
      · rename_i h1 _ h2
        rw [h1] at hread
        simp only [h2] at hread
        rcases hread with h | ⟨t, a, d, io, h⟩
        · cases h
        · split at h <;> simp at h
      · rename_i h1 _ a d io h2
        rw [h1] at hread
        simp only [h2] at hread
        split
        · rename_i h3
          rw [if_pos h3] at hread
          rcases hread with h | ⟨t, a, d, io, h⟩
          · cases h
          · split at h <;> simp at h
        · rfl
  have := (c45_idle_wait v _ i (some n) hn).2 hne (.inr hr)
  cases this

/-- Nothing is acknowledged and no timer found expired by the operation. -/
def Spec.quiet : RateOp → Bool
  | .acked _ => false
  | .expired => false
  | .calculate _ => false
  | _ => true

theorem rate_run_quiet {bs : Nat} {ops : List RateOp} (hq : ∀ op ∈ ops, Spec.quiet op = true) {r r' : Rate} (h : r.run bs ops = some r') :
    r'.acked = r.acked ∧ r'.expired = r.expired := by
  induction ops generalizing r with
  | nil => cases h; exact ⟨rfl, rfl⟩
  | cons op ops ih =>
    simp only [Rate.run, List.foldlM_cons, Option.bind_eq_bind, Option.bind_eq_some_iff] at h
    obtain ⟨r1, h1, h2⟩ := h
    have b := ih (fun y hy => hq y (List.mem_cons_of_mem op hy)) h2
    have a : r1.acked = r.acked ∧ r1.expired = r.expired := by
      have hq := hq op List.mem_cons_self
      cases op with
      | sent n => simp only [Rate.op] at h1; split at h1 <;> cases h1; exact ⟨rfl, rfl⟩
      | loss => cases h1; exact ⟨rfl, rfl⟩
      | _ => cases hq
    exact ⟨b.1.trans a.1, b.2.trans a.2⟩

theorem rate_restart {bs : Nat} (hb : 1 ≤ bs) {r r' : Rate} {io : RateIo} (ha : r.acked = 0) (he : r.expired = false) (hl : io.loss = false)
    (h : r.op bs (.calculate io) = some r') : initialRate bs = some r'.allowed := by
  simp only [Rate.op, Rate.calculate, Option.bind_eq_bind, Option.bind_eq_some_iff, Option.pure_def, Option.some.injEq] at h
  obtain ⟨i, hi, rfl⟩ := h
  have h4 : 2 ≤ i := by
    simp only [initialRate, mulU16] at hi
    split at hi
    · split at hi
      · simp only [Option.bind_eq_bind, Option.bind_some, Option.pure_def, Option.some.injEq] at hi; omega
      · simp at hi
    · simp at hi
  rw [hi]
  simp only [he, Bool.false_eq_true, if_false, ha, if_true, hl, Option.some.injEq, dbl, maxU32]
  omega

/-- **C45**: if no loss is known and nothing has been acknowledged since the preceding calculation (or since the start), then a
calculation sets the allowed rate back to the initial one, however large it was. -/
theorem c45_restart (bs : Nat) (hb : 1 ≤ bs) (ops0 ops : List RateOp) (a b : RateIo) (r : Rate) (hl : b.loss = false)
    (hq : ∀ op ∈ ops, Spec.quiet op = true) :
    (Rate.new.run bs (ops ++ [.calculate b]) = some r → initialRate bs = some r.allowed) ∧
    (Rate.new.run bs (ops0 ++ .calculate a :: (ops ++ [.calculate b])) = some r → initialRate bs = some r.allowed) := by
  have last : ∀ {x : Rate}, x.acked = 0 → x.expired = false → x.run bs (ops ++ [.calculate b]) = some r →
      initialRate bs = some r.allowed := by
    intro x h1 h2 h
    rw [rate_run_append, Option.bind_eq_some_iff] at h
    obtain ⟨y, hy, h⟩ := h
    have q := rate_run_quiet hq hy
    refine rate_restart hb (q.1.trans h1) (q.2.trans h2) hl (?_ : y.op bs (.calculate b) = some r)
    simp only [Rate.run, List.foldlM_cons, List.foldlM_nil, Option.bind_eq_bind, Option.bind_eq_some_iff, Option.pure_def,
      Option.some.injEq, exists_eq_right] at h
    exact h
  refine ⟨last rfl rfl, fun h => ?_⟩
  rw [rate_run_append, Option.bind_eq_some_iff] at h
  obtain ⟨y, -, h⟩ := h
  simp only [Rate.run, List.foldlM_cons, Option.bind_eq_bind, Option.bind_eq_some_iff] at h
  obtain ⟨z, hz, h⟩ := h
  have e : z.acked = 0 ∧ z.expired = false := by
    simp only [Rate.op, Rate.calculate, Option.bind_eq_bind, Option.bind_eq_some_iff, Option.pure_def, Option.some.injEq] at hz
    obtain ⟨i, hi, rfl⟩ := hz
    exact ⟨rfl, rfl⟩
  exact last e.1 e.2 h

/-- A case: 1000 bytes are acknowledged, the next calculation doubles the rate; then nothing is, and it falls back. -/
example : ((Rate.new.run 512 [.acked 5000, .calculate ⟨9000, 0, false, 0⟩, .calculate ⟨100, 0, false, 0⟩]).map (·.allowed)) = initialRate 512 := by
  decide

end Tftp

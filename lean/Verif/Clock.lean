import Verif.Toy
/-
C94: the clock of builds without the standard library. There `Instant` (src/std_compat.rs:1-21) reads a callback, and std-binary/src/io.rs:169-179
passes the wall clock (`SystemTime`), which can be set back. The subtraction of `Duration`s panics below zero; elsewhere (std's
`Instant`, and Server.lean) an earlier time counts as no time.
-/
namespace Tftp

/-- src/std_compat.rs:17-19 `Instant::elapsed`; `none`: the program panics ("overflow when subtracting durations"). -/
def elapsedIn (init now : Nat) : Option Nat := if init ≤ now then some (now - init) else none

/-- src/server/helpers/read.rs:25-85 `send_data_block`, see `Srv.sendBlock`. Reading the timer again for the log message
(read.rs:39) is left out. -/
def Srv.sendBlockClk {S} (v : Srv S) (c : Conn) (t : Nat) (io : SendIo) : Option (Conn × Option Bytes × Bool) :=
  match c.side with
  | .writer _ => some (c, none, false)
  | .reader s =>
    match elapsedIn c.lastSent t with
    | none => none
    | some e =>
      let retry := decide (e > c.opts.retry * c.mult)
      let c := if retry then { c with mult := min 255 (c.mult + 2) } else c
      let (s', d) := serverSendTick (v.transfer c) s retry io.fail io.net io.nonce
      let sent := d.isSome && !s'.failed
      some ({ c with side := .reader s', lastSent := if sent then t else c.lastSent }, d.map (·.bytes), sent)

/-- src/server/helpers/connection.rs:135-164 `timeout_client`, see `Srv.timeout`. -/
def Srv.timeoutClk {S} (v : Srv S) (c : Conn) (t : Nat) (io : RecvIo) : Option (Bool × Option Bytes) :=
  if c.failed || c.finished then some (true, none)
  else match elapsedIn c.lastUpdated t with
    | none => none
    | some e =>
      if e ≤ v.cfg.requestTimeout then some (false, none)
      else some (true, if io.sendOk then (v.transfer c).codec.enc io.nonce (Packet.error .accessViolation []).toBytes else none)

/-- src/server/single_thread.rs:425-455, see `Srv.pass`. -/
def Srv.passClk {S} (v : Srv S) (t : Nat) (io : Addr → SendIo) (lo : Nat) (hi : Option Nat) :
    Nat → List (Addr × Conn) → Option (List (Addr × Conn) × Option (Nat × Addr) × List (Addr × Bytes))
  | _, [] => some ([], none, [])
  | i, (a, c) :: rest =>
    if c.active then
      if lo ≤ i ∧ hi.all (fun h => decide (i < h)) = true then
        match v.sendBlockClk c t (io a) with
        | none => none
        | some (c', d, sent) =>
          let out := d.toList.map (a, ·)
          if sent then some ((a, c') :: rest, some (i + 1, a), out)
          else match v.passClk t io lo hi (i + 1) rest with
            | none => none
            | some (rest, j, out') => some ((a, c') :: rest, j, out ++ out')
      else match v.passClk t io lo hi (i + 1) rest with
        | none => none
        | some (rest, j, out) => some ((a, c) :: rest, j, out)
    else match v.passClk t io lo hi i rest with
      | none => none
      | some (rest, j, out) => some ((a, c) :: rest, j, out)

/-- src/server/single_thread.rs:419-458 `send_data_blocks`, see `Srv.sendRound`. -/
def Srv.sendRoundClk {S} (v : Srv S) (s : SrvSt) (t : Nat) (io : Addr → SendIo) : Option (SrvSt × Option Addr × List (Addr × Bytes)) :=
  match v.passClk t io s.next none 0 s.clients with
  | none => none
  | some (cl, some (j, a), out) => some (⟨cl, j⟩, some a, out)
  | some (cl, none, out) => match v.passClk t io 0 (some s.next) 0 cl with
    | none => none
    | some (cl, some (j, a), out') => some (⟨cl, j⟩, some a, out ++ out')
    | some (cl, none, out') => some (⟨cl, s.next⟩, none, out ++ out')

/-- src/server/single_thread.rs:149-154: the table without the connections `timeout_client` drops, and the messages sent. -/
def Srv.purgeClk {S} (v : Srv S) (t : Nat) (io : Addr → RecvIo) : List (Addr × Conn) → Option (List (Addr × Conn) × List (Addr × Bytes))
  | [] => some ([], [])
  | (a, c) :: rest =>
    match v.timeoutClk c t (io a) with
    | none => none
    | some (drop, m) => match v.purgeClk t io rest with
      | none => none
      | some (rest, out) => some (if drop then rest else (a, c) :: rest, m.toList.map (a, ·) ++ out)

/-- One step of src/server/single_thread.rs:146-416, see `Srv.step`. A datagram for a connection or from a new address reads
the clock, but measures no time (apart from log messages and metrics). -/
def Srv.stepClk {S} (v : Srv S) (s : SrvSt) : SrvEv → Option (SrvSt × List (Addr × Bytes))
  | .purge t io => (v.purgeClk t io s.clients).map fun y => ({ s with clients := y.1 }, y.2)
  | .round t io => (v.sendRoundClk s t io).map fun y => (y.1, y.2.2)
  | e => some (v.step s e)

/-- The state after a list of events; `none`: the server has panicked. -/
def Srv.runClk {S} (v : Srv S) (s : SrvSt) : List SrvEv → Option SrvSt
  | [] => some s
  | e :: r => match v.stepClk s e with
    | none => none
    | some y => v.runClk y.1 r

/-! ### Specification -/

/-- The clock did not show less than `t0` and was never set back. -/
def Spec.Forward (t0 : Nat) : List SrvEv → Prop
  | [] => True
  | e :: r => t0 ≤ e.time ∧ Spec.Forward e.time r

/-- Both timers of every connection were started before `t`. -/
def Spec.TimersPast (t : Nat) (cl : List (Addr × Conn)) : Prop := ∀ x ∈ cl, x.2.lastSent ≤ t ∧ x.2.lastUpdated ≤ t

/-! ### A clock which is not set back -/

theorem elapsedIn_past {i t : Nat} (h : i ≤ t) : elapsedIn i t = some (t - i) := if_pos h

theorem elapsedIn_future {i t : Nat} (h : t < i) : elapsedIn i t = none := if_neg (by omega)

theorem sendBlockClk_eq {S} (v : Srv S) (c : Conn) (t : Nat) (io : SendIo) (h : c.lastSent ≤ t) :
    v.sendBlockClk c t io = some (v.sendBlock c t io) := by
  unfold Srv.sendBlockClk Srv.sendBlock
  cases c.side with
  | writer s => rfl
  | reader s =>
    rw [elapsedIn_past h]
    rfl

theorem timeoutClk_eq {S} (v : Srv S) (c : Conn) (t : Nat) (io : RecvIo) (h : c.lastUpdated ≤ t) :
    v.timeoutClk c t io = some (v.timeout c t io) := by
  unfold Srv.timeoutClk Srv.timeout
  rw [elapsedIn_past h]
  split
  · rfl
  · simp only
    split <;> rfl

theorem sendBlock_past {S} (v : Srv S) (c : Conn) (t : Nat) (io : SendIo) (h : c.lastSent ≤ t ∧ c.lastUpdated ≤ t) :
    (v.sendBlock c t io).1.lastSent ≤ t ∧ (v.sendBlock c t io).1.lastUpdated ≤ t := by
  refine ⟨?_, by rw [(sendBlock_updated v c t io).1]; exact h.2⟩
  unfold Srv.sendBlock
  cases c.side with
  | writer s => exact h.1
  | reader s =>
    simp only
    split <;> (split <;> first | exact Nat.le_refl _ | exact h.1)

theorem handle_past {S} (v : Srv S) (c : Conn) (t : Nat) (dg : Bytes) (io : RecvIo) (h : c.lastSent ≤ t ∧ c.lastUpdated ≤ t) :
    (v.handle c t dg io).1.lastSent ≤ t ∧ (v.handle c t dg io).1.lastUpdated ≤ t := by
  unfold Srv.handle
  cases c.side with
  | reader s =>
    simp only
    split
    · exact ⟨h.1, Nat.le_refl _⟩
    · exact h
  | writer s =>
    simp only
    refine ⟨h.1, ?_⟩
    split
    · exact Nat.le_refl _
    · exact h.2

theorem passClk_eq {S} (v : Srv S) (t : Nat) (io : Addr → SendIo) (lo : Nat) (hi : Option Nat) (cl : List (Addr × Conn)) :
    ∀ i, Spec.TimersPast t cl → v.passClk t io lo hi i cl = some (v.pass t io lo hi i cl) ∧ Spec.TimersPast t (v.pass t io lo hi i cl).1 := by
  induction cl with
  | nil => exact fun i h => ⟨rfl, h⟩
  | cons x rest ih =>
    intro i h
    obtain ⟨a, c⟩ := x
    have hc := h (a, c) (by simp)
    have hr : Spec.TimersPast t rest := fun x hx => h x (by simp [hx])
    have hcons : ∀ (c' : Conn) (l : List (Addr × Conn)), (c'.lastSent ≤ t ∧ c'.lastUpdated ≤ t) → Spec.TimersPast t l →
        Spec.TimersPast t ((a, c') :: l) := by
      intro c' l h1 h2 x hx
      rcases List.mem_cons.mp hx with rfl | hx
      · exact h1
      · exact h2 x hx
    unfold Srv.passClk Srv.pass
    split
    · split
      · rw [sendBlockClk_eq v c t (io a) hc.1]
        simp only
        have hb := sendBlock_past v c t (io a) hc
        split
        · exact ⟨rfl, hcons _ _ hb hr⟩
        · obtain ⟨h1, h2⟩ := ih (i + 1) hr
          rw [h1]
          exact ⟨rfl, hcons _ _ hb h2⟩
      · obtain ⟨h1, h2⟩ := ih (i + 1) hr
        rw [h1]
        exact ⟨rfl, hcons _ _ hc h2⟩
    · obtain ⟨h1, h2⟩ := ih i hr
      rw [h1]
      exact ⟨rfl, hcons _ _ hc h2⟩

theorem sendRoundClk_eq {S} (v : Srv S) (s : SrvSt) (t : Nat) (io : Addr → SendIo) (h : Spec.TimersPast t s.clients) :
    v.sendRoundClk s t io = some (v.sendRound s t io) ∧ Spec.TimersPast t (v.sendRound s t io).1.clients := by
  obtain ⟨h1, h2⟩ := passClk_eq v t io s.next none s.clients 0 h
  unfold Srv.sendRoundClk Srv.sendRound
  rw [h1]
  generalize v.pass t io s.next none 0 s.clients = y at h2
  obtain ⟨cl, j, out⟩ := y
  cases j with
  | some j => exact ⟨rfl, h2⟩
  | none =>
    obtain ⟨h3, h4⟩ := passClk_eq v t io 0 (some s.next) cl 0 h2
    simp only
    rw [h3]
    generalize v.pass t io 0 (some s.next) 0 cl = y at h4
    obtain ⟨cl', j', out'⟩ := y
    cases j' <;> exact ⟨rfl, h4⟩

theorem purgeClk_eq {S} (v : Srv S) (t : Nat) (io : Addr → RecvIo) (cl : List (Addr × Conn)) (h : Spec.TimersPast t cl) :
    v.purgeClk t io cl = some (cl.filter (fun x => !(v.timeout x.2 t (io x.1)).1),
      cl.flatMap fun x => ((v.timeout x.2 t (io x.1)).2.toList.map (x.1, ·))) := by
  induction cl with
  | nil => rfl
  | cons x rest ih =>
    obtain ⟨a, c⟩ := x
    unfold Srv.purgeClk
    rw [timeoutClk_eq v c t (io a) (h (a, c) (by simp)).2, ih fun x hx => h x (by simp [hx])]
    simp only [List.flatMap_cons, Option.some.injEq, Prod.mk.injEq, and_true]
    cases hd : (v.timeout c t (io a)).1 with
    | true => rw [List.filter_cons_of_neg (by simp [hd])]; rfl
    | false => rw [List.filter_cons_of_pos (by simp [hd])]; rfl

theorem stepClk_eq {S} (v : Srv S) (s : SrvSt) (e : SrvEv) (h : Spec.TimersPast e.time s.clients) :
    v.stepClk s e = some (v.step s e) ∧ Spec.TimersPast e.time (v.step s e).1.clients := by
  cases e with
  | purge t io =>
    refine ⟨?_, fun x hx => h x (List.mem_filter.mp hx).1⟩
    unfold Srv.stepClk
    simp only
    rw [purgeClk_eq v t io _ h]
    rfl
  | round t io =>
    obtain ⟨h1, h2⟩ := sendRoundClk_eq v s t io h
    refine ⟨?_, h2⟩
    unfold Srv.stepClk
    simp only
    rw [h1]
    rfl
  | client t a dg io =>
    refine ⟨rfl, ?_⟩
    intro x hx
    obtain ⟨y, hy, rfl⟩ := List.mem_map.mp hx
    split
    · exact handle_past v y.2 t dg io (h y hy)
    · exact h y hy
  | main t a dg io =>
    refine ⟨rfl, ?_⟩
    simp only [Srv.step]
    split
    · exact h
    · split
      · exact h
      · cases hr : (v.newConn t dg io).result with
        | error _ => exact h
        | ok y =>
          obtain ⟨c, out⟩ := y
          obtain ⟨_, _, _, _, _, _, -, -, -, -, -, hu, hs, -⟩ := newConn_ok hr
          intro x hx
          rcases List.mem_cons.mp ((insertClient_perm a c s.clients).mem_iff.mp hx) with rfl | hx
          · simp only [SrvEv.time]; omega
          · exact h x hx

theorem timersPast_later {t u : Nat} {cl : List (Addr × Conn)} (h : Spec.TimersPast t cl) (htu : t ≤ u) : Spec.TimersPast u cl :=
  fun x hx => ⟨Nat.le_trans (h x hx).1 htu, Nat.le_trans (h x hx).2 htu⟩

theorem runClk_eq {S} (v : Srv S) (evs : List SrvEv) : ∀ (s : SrvSt) (t0 : Nat), Spec.TimersPast t0 s.clients → Spec.Forward t0 evs →
    v.runClk s evs = some (v.run s evs) := by
  induction evs with
  | nil => intro _ _ _ _; rfl
  | cons e r ih =>
    intro s t0 h hf
    obtain ⟨h1, h2⟩ := stepClk_eq v s e (timersPast_later h hf.1)
    unfold Srv.runClk
    rw [h1]
    exact ih _ e.time h2 hf.2

/-- **C94**: as long as the clock is not set back, a server built without the standard library measures times like any other: it
does not panic, and after every history its connections are those of the other builds. -/
theorem c94_forward {S} (v : Srv S) (evs : List SrvEv) (h : Spec.Forward 0 evs) :
    v.runClk ⟨[], 0⟩ evs = some (v.run ⟨[], 0⟩ evs) :=
  runClk_eq v evs ⟨[], 0⟩ 0 (fun _ hx => nomatch hx) h

/-! ### A clock which is set back -/

theorem purgeClk_none {S} (v : Srv S) (t : Nat) (io : Addr → RecvIo) (cl : List (Addr × Conn)) :
    v.purgeClk t io cl = none ↔ ∃ x ∈ cl, x.2.failed = false ∧ x.2.finished = false ∧ t < x.2.lastUpdated := by
  induction cl with
  | nil => simp [Srv.purgeClk]
  | cons x rest ih =>
    obtain ⟨a, c⟩ := x
    have ht : v.timeoutClk c t (io a) = none ↔ c.failed = false ∧ c.finished = false ∧ t < c.lastUpdated := by
      unfold Srv.timeoutClk
      by_cases hff : (c.failed || c.finished) = true
      · rw [if_pos hff]
        constructor
        · exact fun h => nomatch h
        · rintro ⟨h1, h2, -⟩; rw [h1, h2] at hff; cases hff
      · rw [if_neg hff]
        have hff' : c.failed = false ∧ c.finished = false := by simpa using hff
        by_cases hl : c.lastUpdated ≤ t
        · rw [elapsedIn_past hl]
          simp only
          constructor
          · intro h; split at h <;> cases h
          · rintro ⟨-, -, h⟩; omega
        · rw [elapsedIn_future (by omega)]
          exact ⟨fun _ => ⟨hff'.1, hff'.2, by omega⟩, fun _ => rfl⟩
    unfold Srv.purgeClk
    constructor
    · intro h
      split at h
      · rename_i hn
        exact ⟨(a, c), by simp, ht.mp hn⟩
      · split at h
        · rename_i hn
          obtain ⟨x, hx, hh⟩ := ih.mp hn
          exact ⟨x, by simp [hx], hh⟩
        · cases h
    · rintro ⟨x, hx, hh⟩
      rcases List.mem_cons.mp hx with rfl | hx
      · rw [ht.mpr hh]
      · split
        · rfl
        · rw [ih.mpr ⟨x, hx, hh⟩]

/-- **C94**, finding: with a clock which has been set back the search for idle connections panics exactly if some running transfer made
progress later than the clock now shows. -/
theorem c94_purge {S} (v : Srv S) (s : SrvSt) (t : Nat) (io : Addr → RecvIo) :
    v.stepClk s (.purge t io) = none ↔
      ∃ x ∈ s.clients, x.2.failed = false ∧ x.2.finished = false ∧ t < x.2.lastUpdated := by
  rw [← purgeClk_none v t io s.clients]
  unfold Srv.stepClk
  simp only [Option.map_eq_none_iff]

/-- **C94**: nothing else makes it panic: whenever a step does, a timer of some connection was started later than the clock now shows. -/
theorem c94_cause {S} (v : Srv S) (s : SrvSt) (e : SrvEv) (h : v.stepClk s e = none) :
    ∃ x ∈ s.clients, e.time < x.2.lastSent ∨ e.time < x.2.lastUpdated := by
  refine Classical.byContradiction fun hn => ?_
  have hp : Spec.TimersPast e.time s.clients := fun x hx => by
    refine Classical.byContradiction fun hx' => hn ⟨x, hx, ?_⟩
    omega
  rw [(stepClk_eq v s e hp).1] at h
  cases h

/-- **C94**: the first connection offered a turn: if its last block went out later than the clock now shows, the server panics. -/
theorem c94_turn {S} (v : Srv S) (s : SrvSt) (t : Nat) (io : Addr → SendIo) (a : Addr) (c : Conn) (rest : List (Addr × Conn))
    (h0 : s.next = 0) (hs : s.clients = (a, c) :: rest) (hact : c.active = true) (ht : t < c.lastSent) :
    v.stepClk s (.round t io) = none := by
  have hb : v.sendBlockClk c t (io a) = none := by
    unfold Srv.sendBlockClk
    unfold Conn.active at hact
    cases hside : c.side with
    | writer _ => rw [hside] at hact; cases hact
    | reader r =>
      simp only
      rw [elapsedIn_future ht]
  have hp : v.passClk t io s.next none 0 s.clients = none := by
    rw [hs, h0]
    unfold Srv.passClk
    rw [if_pos hact, if_pos ⟨Nat.le_refl _, rfl⟩, hb]
  unfold Srv.stepClk Srv.sendRoundClk
  simp only
  rw [hp]
  rfl

/-! ### Examples -/

open Toy in
/-- The hypothesis of `c94_forward` is met by a history with two connections. -/
example : Spec.Forward 0 turns := by
  refine ⟨?_, ?_, ?_, ?_, ?_, trivial⟩ <;> decide

open Toy in
/-- **C94**, finding: a client starts a download at 5000; the clock is set back by one unit; the next look at the connections ends the
server, although nothing else happened. Other builds keep the connection. -/
theorem c94_set_back :
    srv.runClk ⟨[], 0⟩ [.main 5000 1 rrq io, .purge 4999 fun _ => ⟨.all, true, 0⟩] = none ∧
    srv.runClk ⟨[], 0⟩ [.main 5000 1 rrq io, .round 4999 sio] = none ∧
    (srv.run ⟨[], 0⟩ [.main 5000 1 rrq io, .purge 4999 fun _ => ⟨.all, true, 0⟩]).clients = [(1, reader 5000)] ∧
    ∃ s, srv.runClk ⟨[], 0⟩ [.main 5000 1 rrq io, .purge 5001 fun _ => ⟨.all, true, 0⟩] = some s := by
  have hj := join (s := ⟨[], 0⟩) 5000 1 rfl (by decide)
  have h1 : ∀ e, srv.runClk ⟨[], 0⟩ [.main 5000 1 rrq io, e] = match srv.stepClk ⟨[(1, reader 5000)], 0⟩ e with
      | none => none
      | some y => some y.1 := by
    intro e
    unfold Srv.runClk
    have : srv.stepClk ⟨[], 0⟩ (.main 5000 1 rrq io) = some (srv.step ⟨[], 0⟩ (.main 5000 1 rrq io)) := rfl
    rw [this]
    simp only
    rw [hj]
    rfl
  refine ⟨?_, ?_, ?_, ?_⟩
  · rw [h1, (c94_purge srv ⟨[(1, reader 5000)], 0⟩ 4999 _).mpr ⟨_, List.mem_singleton.mpr rfl, rfl, rfl, by decide⟩]
  · rw [h1, c94_turn srv ⟨[(1, reader 5000)], 0⟩ 4999 sio 1 (reader 5000) [] rfl rfl rfl (by decide)]
  · simp only [Srv.run, List.foldl]
    rw [hj]
    rfl
  · refine ⟨_, c94_forward srv _ ⟨?_, ?_, trivial⟩⟩ <;> decide

end Tftp

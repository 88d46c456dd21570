import Verif.Clock
import Verif.ToyClient
/-
C96: the timers of the client in builds without the standard library (see Clock.lean). Besides the timers which decide something (`CliSt`, Client.lean)
there are some which only measure: their readings panic just as well.
-/
namespace Tftp

/-- The timers of the client which `CliSt` leaves out: `begun`: src/client/receiver.rs:81 `initial_rtt`, in the sender the timer of the rate control
(src/client/sender.rs:95-97, src/flow_control.rs:52); `started`: receiver.rs:125, sender.rs:183; `sent`: sender.rs:154 `last_sent`; `stats`: sender.rs:175
`stats_calculate`; `rtt`: the timer of the rate control (src/flow_control.rs:22) from then on. -/
structure Watches where
  begun : Nat
  started : Nat
  sent : Nat
  stats : Nat
  rtt : Nat

/-- The client together with these timers. -/
structure Timed where
  cli : CliSt
  w : Watches

/-- One iteration of a loop of the client. `early`: what the clock shows when the iteration of the sending loop starts. `measure`: does the rate control look
at its timer when a block goes out (sender.rs:219-224); `again`: does it restart it then; `rated`: does it look at it when an acknowledgement arrives
(sender.rs:309). Simplification: these depend on block numbers and are left open; so is whether `stats` is restarted. -/
structure ClkIn where
  base : CliIn
  early : Nat
  measure : Bool
  again : Bool
  rated : Bool
  renew : Bool

/-- The first look at the timers: src/client/sender.rs:96-97, src/client/receiver.rs:81. -/
def Cli.startClk {S} (v : Cli S) (j : Job) (t : Nat) : Timed := ⟨.query (v.start j t), ⟨t, t, t, t, t⟩⟩

/-- src/client/connection.rs:191-224 and what follows, see `Cli.queryStep`. `none`: the program panics. Reading the timer for the log message (connection.rs:196-200)
is left out. -/
def Cli.queryStepClk {S} (v : Cli S) (j : Job) (w : Watches) (q : Query) (i : CliIn) : Option (Timed × List (Ep × Bytes)) :=
  let k := (v.initialSock j.opts).1
  let o := v.requestOpts j
  match v.put k i.nonce i.sendOk (j.request q.exts) with
  | none => some (⟨.done (.error .io) [], w⟩, [])
  | some req =>
    let out := [(v.cfg.endpoint, req)]
    match i.recv with
    | .error => some (⟨.done (.error .io) [], w⟩, out)
    | .wouldBlock => match elapsedIn q.start i.t with
      | none => none
      | some e =>
        if e > v.cfg.requestTimeout then some (⟨.done (.error .timeout) [], w⟩, out)
        else some (⟨.query { q with pause := min (v.cfg.requestTimeout - e) (q.pause * 2) }, w⟩, out)
    | .dgram src d =>
      match k.recv (d.take q.room) with
      | none => some (⟨.done (.error .io) [], w⟩, out)
      | some b =>
        if src.ip ≠ v.cfg.endpoint.ip then some (⟨.query { q with room := b.length }, w⟩, out)
        else if src ≠ v.cfg.endpoint ∧ v.cfg.allowPortChange = false then some (⟨.done (.error .invalid) [], w⟩, out)
        else match v.reply j.write o q.used q.initial b with
          | .fail e ps => some (⟨.done (.error e) [], w⟩, out ++ (ps.filterMap (v.put k i.nonce2 i.sendOk)).map (src, ·))
          | .again => some (⟨.query ⟨Exts.empty, Exts.empty, false, o.retry, i.t, recvBuffer o.blockSize⟩, w⟩, out)
          | .accept ack o' rk first => match elapsedIn w.begun i.t with
            | none => none
            | some _ =>
              let (s, ps) := v.accepted j src ack o' rk first i
              some (⟨s, ⟨w.begun, i.t, i.t, i.t, w.begun⟩⟩, out ++ ps.map (src, ·))

/-- src/client/receiver.rs:179-259, see `Cli.downStep`. -/
def Cli.downStepClk {S} (v : Cli S) (w : Watches) (c : Cfg) (room : Nat) (ep : Ep) (s : RecvSt) (since : Nat) (auth : Option Bytes) (i : CliIn) :
    Option (Timed × List (Ep × Bytes)) :=
  match i.recv with
  | .error => some (⟨.done (.error .io) s.w.out, w⟩, [])
  | .wouldBlock => match elapsedIn since i.t with
    | none => none
    | some e =>
      if e > v.cfg.requestTimeout then some (⟨.done (.error .timeout) s.w.out, w⟩, []) else some (⟨.down c room ep s since auth, w⟩, [])
  | .dgram src dg =>
    let dg := dg.take room
    if (c.codec.dec dg).isNone then some (⟨.done (.error .io) s.w.out, w⟩, [])
    else if src ≠ ep then some (⟨.down c room ep s since auth, w⟩, [])
    else
      let (s', a) := clientRecv c s dg i.file i.sendOk i.nonce
      let out := (a.map (·.bytes)).toList.map (ep, ·)
      if s'.failed then some (⟨.done (.error .io) s'.w.out, w⟩, out)
      else if s'.finished then match elapsedIn w.started i.t with
        | none => none
        | some _ => some (⟨.done (.ok (s'.total, auth)) s'.w.out, w⟩, out)
      else some (⟨.down c room ep s' (if s'.w.written > s.w.written then i.t else since) auth, w⟩, out)

/-- src/client/sender.rs:185-258: what is read and restarted before the wait for a datagram; `sent`: a block went out. -/
def Watches.early (w : Watches) (i : ClkIn) (sent : Bool) : Option Watches :=
  match elapsedIn w.stats i.early, elapsedIn w.sent i.early with
  | some _, some _ =>
    let w := if i.renew then { w with stats := i.early } else w
    if i.measure then match elapsedIn w.rtt i.early with
      | none => none
      | some _ => some { w with sent := if sent then i.early else w.sent, rtt := if i.again then i.early else w.rtt }
    else some { w with sent := if sent then i.early else w.sent }
  | _, _ => none

/-- One iteration of the sending loop: src/client/sender.rs:184-339, see `Cli.upStep`. Reading timers for log messages (sender.rs:256-261) is left out. -/
def Cli.upStepClk {S} (v : Cli S) (w : Watches) (c : Cfg) (room : Nat) (ep : Ep) (s : SendSt) (since : Nat) (auth : Option Bytes) (x : ClkIn) :
    Option (Timed × List (Ep × Bytes)) :=
  let i := x.base
  let (s, d) := clientSendTick c s i.retry i.fail i.wb i.net i.nonce
  match w.early x (d.isSome && !s.failed) with
  | none => none
  | some w =>
    let out := (d.map (·.bytes)).toList.map (ep, ·)
    if s.failed then some (⟨.done (.error .io) [], w⟩, out)
    else match i.recv with
      | .error => some (⟨.done (.error .io) [], w⟩, out)
      | .wouldBlock => match elapsedIn since i.t with
        | none => none
        | some e =>
          if e > v.cfg.requestTimeout then some (⟨.done (.error .timeout) [], w⟩, out) else some (⟨.up c room ep s since auth, w⟩, out)
      | .dgram src dg =>
        let dg := dg.take room
        if (c.codec.dec dg).isNone then some (⟨.done (.error .io) [], w⟩, out)
        else if src ≠ ep then some (⟨.up c room ep s since auth, w⟩, out)
        else if c.isAck dg && x.rated && (elapsedIn w.rtt i.t).isNone then none
        else
          let s := clientSendRecv c s dg
          if s.failed then some (⟨.done (.error .io) [], w⟩, out)
          else if s.finished then match elapsedIn w.started i.t with
            | none => none
            | some _ => some (⟨.done (.ok (s.total, auth)) [], w⟩, out)
          else some (⟨.up c room ep s (if c.isAck dg then i.t else since) auth, w⟩, out)

/-- One iteration. -/
def Cli.stepClk {S} (v : Cli S) (j : Job) (m : Timed) (x : ClkIn) : Option (Timed × List (Ep × Bytes)) :=
  match m.cli with
  | .query q => v.queryStepClk j m.w q x.base
  | .up c room ep s since auth => v.upStepClk m.w c room ep s since auth x
  | .down c room ep s since auth => v.downStepClk m.w c room ep s since auth x.base
  | .done r f => some (⟨.done r f, m.w⟩, [])

/-- The state and everything sent; `none`: the program has panicked. -/
def Cli.runFromClk {S} (v : Cli S) (j : Job) (m : Timed) : List ClkIn → Option (CliSt × List (Ep × Bytes))
  | [] => some (m.cli, [])
  | x :: xs => match v.stepClk j m x with
    | none => none
    | some (m', out) => (v.runFromClk j m' xs).map fun y => (y.1, out ++ y.2)

/-- A client from its start at time `t`. -/
def Cli.runClk {S} (v : Cli S) (j : Job) (t : Nat) (xs : List ClkIn) : Option (CliSt × List (Ep × Bytes)) := v.runFromClk j (v.startClk j t) xs

/-! ### Specification -/

/-- The clock did not show less than `t0` and was never set back: two readings in every iteration. -/
def Spec.Onward (t0 : Nat) : List ClkIn → Prop
  | [] => True
  | x :: xs => t0 ≤ x.early ∧ x.early ≤ x.base.t ∧ Spec.Onward x.base.t xs

/-- The timer of the loop itself. -/
def CliSt.timer : CliSt → Option Nat
  | .query q => some q.start
  | .up _ _ _ _ since _ => some since
  | .down _ _ _ _ since _ => some since
  | .done .. => none

/-- All timers were started before `t`. -/
def Timed.Past (m : Timed) (t : Nat) : Prop :=
  m.cli.timer.all (fun x => decide (x ≤ t)) = true ∧ m.w.begun ≤ t ∧ m.w.started ≤ t ∧ m.w.sent ≤ t ∧ m.w.stats ≤ t ∧ m.w.rtt ≤ t

/-! ### A clock which is not set back -/

theorem past_later {m : Timed} {t u : Nat} (h : m.Past t) (htu : t ≤ u) : m.Past u := by
  obtain ⟨h1, h2, h3, h4, h5, h6⟩ := h
  refine ⟨?_, by omega, by omega, by omega, by omega, by omega⟩
  cases hm : m.cli.timer with
  | none => rfl
  | some x =>
    rw [hm] at h1
    simp only [Option.all_some, decide_eq_true_eq] at h1 ⊢
    omega

theorem accepted_timer {S} (v : Cli S) (j : Job) (ep : Ep) (ack : Bool) (o : Opts) (rk : Option RemoteKeys) (first : Option Bytes) (i : CliIn) :
    (v.accepted j ep ack o rk first i).1.timer.all (fun x => decide (x ≤ i.t)) = true := by
  unfold Cli.accepted
  simp only
  repeat' split
  all_goals simp [CliSt.timer]

theorem early_past {w : Watches} {x : ClkIn} {t : Nat} (b : Bool) (ht : t ≤ x.early)
    (h : w.begun ≤ t ∧ w.started ≤ t ∧ w.sent ≤ t ∧ w.stats ≤ t ∧ w.rtt ≤ t) :
    ∃ w', w.early x b = some w' ∧ w'.begun ≤ x.early ∧ w'.started ≤ x.early ∧ w'.sent ≤ x.early ∧ w'.stats ≤ x.early ∧ w'.rtt ≤ x.early := by
  obtain ⟨h2, h3, h4, h5, h6⟩ := h
  have e1 : elapsedIn w.stats x.early = some (x.early - w.stats) := elapsedIn_past (by omega)
  have e2 : elapsedIn w.sent x.early = some (x.early - w.sent) := elapsedIn_past (by omega)
  have e3 : elapsedIn w.rtt x.early = some (x.early - w.rtt) := elapsedIn_past (by omega)
  unfold Watches.early
  rw [e1, e2]
  simp only
  cases x.renew <;> cases x.measure <;> cases x.again <;> cases b <;>
    simp only [Bool.false_eq_true, if_false, if_true, e3] <;>
    exact ⟨_, rfl, by simp only; omega, by simp only; omega, by simp only; omega, by simp only; omega, by simp only; omega⟩

/-- What is shown of an iteration: `r` with timers, `r'` without. -/
def Agrees (t : Nat) (r : Option (Timed × List (Ep × Bytes))) (r' : CliSt × List (Ep × Bytes)) : Prop :=
  ∃ w, r = some (⟨r'.1, w⟩, r'.2) ∧ (⟨r'.1, w⟩ : Timed).Past t

theorem queryStepClk_eq {S} (v : Cli S) (j : Job) (w : Watches) (q : Query) (i : CliIn) (h : (⟨.query q, w⟩ : Timed).Past i.t) :
    Agrees i.t (v.queryStepClk j w q i) (v.queryStep j q i) := by
  obtain ⟨h1, h2⟩ := h
  have h1' : q.start ≤ i.t := by simpa [CliSt.timer] using h1
  have hd : ∀ r f, (⟨.done r f, w⟩ : Timed).Past i.t := fun _ _ => ⟨rfl, h2⟩
  unfold Cli.queryStepClk Cli.queryStep
  simp only
  rw [elapsedIn_past h1', elapsedIn_past h2.1]
  cases v.put (v.initialSock j.opts).1 i.nonce i.sendOk (j.request q.exts) with
  | none => exact ⟨_, rfl, hd _ _⟩
  | some req =>
    simp only
    cases i.recv with
    | error => exact ⟨_, rfl, hd _ _⟩
    | wouldBlock =>
      simp only
      by_cases hb : i.t - q.start > v.cfg.requestTimeout
      · simp only [hb, ↓reduceIte]; exact ⟨_, rfl, hd _ _⟩
      · simp only [hb, ↓reduceIte]; exact ⟨_, rfl, h1, h2⟩
    | dgram src d =>
      simp only
      cases (v.initialSock j.opts).1.recv (d.take q.room) with
      | none => exact ⟨_, rfl, hd _ _⟩
      | some b =>
        simp only
        by_cases hb : src.ip ≠ v.cfg.endpoint.ip
        · rw [if_pos hb, if_pos hb]; exact ⟨_, rfl, h1, h2⟩
        · by_cases hc : src ≠ v.cfg.endpoint ∧ v.cfg.allowPortChange = false
          · rw [if_neg hb, if_pos hc, if_neg hb, if_pos hc]; exact ⟨_, rfl, hd _ _⟩
          · rw [if_neg hb, if_neg hc, if_neg hb, if_neg hc]
            cases v.reply j.write (v.requestOpts j) q.used q.initial b with
            | fail e ps => exact ⟨_, rfl, hd _ _⟩
            | again => exact ⟨_, rfl, by simp [CliSt.timer], h2⟩
            | accept ack o' rk first =>
              exact ⟨_, rfl, accepted_timer .., h2.1, Nat.le_refl _, Nat.le_refl _, Nat.le_refl _, h2.1⟩

theorem downStepClk_eq {S} (v : Cli S) (w : Watches) (c : Cfg) (room : Nat) (ep : Ep) (s : RecvSt) (since : Nat) (auth : Option Bytes) (i : CliIn)
    (h : (⟨.down c room ep s since auth, w⟩ : Timed).Past i.t) :
    Agrees i.t (v.downStepClk w c room ep s since auth i) (v.downStep c room ep s since auth i) := by
  obtain ⟨h1, h2⟩ := h
  have h1' : since ≤ i.t := by simpa [CliSt.timer] using h1
  have hd : ∀ r f, (⟨.done r f, w⟩ : Timed).Past i.t := fun _ _ => ⟨rfl, h2⟩
  unfold Cli.downStepClk Cli.downStep
  rw [elapsedIn_past h1', elapsedIn_past h2.2.1]
  cases i.recv with
  | error => exact ⟨_, rfl, hd _ _⟩
  | wouldBlock =>
    simp only
    by_cases hb : i.t - since > v.cfg.requestTimeout
    · simp only [hb, ↓reduceIte]; exact ⟨_, rfl, hd _ _⟩
    · simp only [hb, ↓reduceIte]; exact ⟨_, rfl, h1, h2⟩
  | dgram src dg =>
    simp only
    by_cases hb : (c.codec.dec (dg.take room)).isNone = true
    · simp only [hb, ↓reduceIte]; exact ⟨_, rfl, hd _ _⟩
    · by_cases hc : src ≠ ep
      · rw [if_neg hb, if_pos hc, if_neg hb, if_pos hc]; exact ⟨_, rfl, h1, h2⟩
      · rw [if_neg hb, if_neg hc, if_neg hb, if_neg hc]
        cases clientRecv c s (dg.take room) i.file i.sendOk i.nonce with
        | mk s' a =>
          simp only
          by_cases hf : s'.failed = true
          · simp only [hf, ↓reduceIte]; exact ⟨_, rfl, hd _ _⟩
          · by_cases hg : s'.finished = true
            · rw [if_neg hf, if_pos hg, if_neg hf, if_pos hg]; exact ⟨_, rfl, hd _ _⟩
            · rw [if_neg hf, if_neg hg, if_neg hf, if_neg hg]
              refine ⟨_, rfl, ?_, h2⟩
              simp only [CliSt.timer, Option.all_some, decide_eq_true_eq]
              split <;> omega

theorem upStepClk_eq {S} (v : Cli S) (w : Watches) (c : Cfg) (room : Nat) (ep : Ep) (s : SendSt) (since : Nat) (auth : Option Bytes) (x : ClkIn) {t : Nat}
    (h : (⟨.up c room ep s since auth, w⟩ : Timed).Past t) (h0 : t ≤ x.early) (h3 : x.early ≤ x.base.t) :
    Agrees x.base.t (v.upStepClk w c room ep s since auth x) (v.upStep c room ep s since auth x.base) := by
  obtain ⟨h1, h2⟩ := h
  have h1' : since ≤ x.base.t := by
    have : since ≤ t := by simpa [CliSt.timer] using h1
    omega
  unfold Cli.upStepClk Cli.upStep
  simp only
  cases htick : clientSendTick c s x.base.retry x.base.fail x.base.wb x.base.net x.base.nonce with
  | mk s1 d =>
    simp only
    obtain ⟨w', hw, g⟩ := early_past (x := x) (d.isSome && !s1.failed) h0 h2
    have g' : w'.begun ≤ x.base.t ∧ w'.started ≤ x.base.t ∧ w'.sent ≤ x.base.t ∧ w'.stats ≤ x.base.t ∧ w'.rtt ≤ x.base.t := by omega
    have hs : (⟨.up c room ep s1 since auth, w'⟩ : Timed).Past x.base.t := ⟨by simpa [CliSt.timer] using h1', g'⟩
    have hd : ∀ r f, (⟨.done r f, w'⟩ : Timed).Past x.base.t := fun _ _ => ⟨rfl, g'⟩
    rw [hw]
    simp only
    rw [elapsedIn_past h1', elapsedIn_past g'.2.2.2.2, elapsedIn_past g'.2.1]
    simp only [Option.isNone_some, Bool.and_false, Bool.false_eq_true, if_false]
    by_cases hf : s1.failed = true
    · simp only [hf, ↓reduceIte]; exact ⟨_, rfl, hd _ _⟩
    · rw [if_neg hf, if_neg hf]
      cases x.base.recv with
      | error => exact ⟨_, rfl, hd _ _⟩
      | wouldBlock =>
        simp only
        by_cases hb : x.base.t - since > v.cfg.requestTimeout
        · simp only [hb, ↓reduceIte]; exact ⟨_, rfl, hd _ _⟩
        · simp only [hb, ↓reduceIte]; exact ⟨_, rfl, hs⟩
      | dgram src dg =>
        simp only
        by_cases hb : (c.codec.dec (dg.take room)).isNone = true
        · simp only [hb, ↓reduceIte]; exact ⟨_, rfl, hd _ _⟩
        · by_cases hc : src ≠ ep
          · rw [if_neg hb, if_pos hc, if_neg hb, if_pos hc]; exact ⟨_, rfl, hs⟩
          · rw [if_neg hb, if_neg hc, if_neg hb, if_neg hc]
            generalize clientSendRecv c s1 (dg.take room) = s2
            by_cases hf : s2.failed = true
            · simp only [hf, ↓reduceIte]; exact ⟨_, rfl, hd _ _⟩
            · by_cases hg : s2.finished = true
              · rw [if_neg hf, if_pos hg, if_neg hf, if_pos hg]; exact ⟨_, rfl, hd _ _⟩
              · rw [if_neg hf, if_neg hg, if_neg hf, if_neg hg]
                refine ⟨_, rfl, ?_, g'⟩
                simp only [CliSt.timer, Option.all_some, decide_eq_true_eq]
                split <;> omega

theorem stepClk_past {S} (v : Cli S) (j : Job) (m : Timed) (x : ClkIn) {t : Nat} (h : m.Past t) (h0 : t ≤ x.early) (h3 : x.early ≤ x.base.t) :
    Agrees x.base.t (v.stepClk j m x) (v.step j m.cli x.base) := by
  obtain ⟨c, w⟩ := m
  have hp := past_later h (Nat.le_trans h0 h3)
  cases c with
  | query q => exact queryStepClk_eq v j w q x.base hp
  | up c room ep s since auth => exact upStepClk_eq v w c room ep s since auth x h h0 h3
  | down c room ep s since auth => exact downStepClk_eq v w c room ep s since auth x.base hp
  | done r f => exact ⟨w, rfl, hp⟩

theorem runFromClk_eq {S} (v : Cli S) (j : Job) (xs : List ClkIn) : ∀ (m : Timed) (t : Nat), m.Past t → Spec.Onward t xs →
    v.runFromClk j m xs = some (v.runFrom j m.cli (xs.map (·.base))) := by
  induction xs with
  | nil => intro _ _ _ _; rfl
  | cons x xs ih =>
    intro m t h ⟨h0, h3, h4⟩
    obtain ⟨w', e, g⟩ := stepClk_past v j m x h h0 h3
    unfold Cli.runFromClk
    rw [e]
    simp only
    rw [ih _ _ g h4]
    rfl

/-- **C96**: as long as the clock is not set back, a client built without the standard library does what a client of other builds does: it never panics over its
timers, sends the same datagrams, writes the same file and returns the same result. -/
theorem c96_forward {S} (v : Cli S) (j : Job) (t : Nat) (xs : List ClkIn) (h : Spec.Onward t xs) :
    v.runClk j t xs = some (v.run j t (xs.map (·.base))) :=
  runFromClk_eq v j xs _ t ⟨by simp [Cli.startClk, CliSt.timer, Cli.start], Nat.le_refl _, Nat.le_refl _, Nat.le_refl _, Nat.le_refl _, Nat.le_refl _⟩ h

/-! ### A clock which is set back -/

/-- **C96**: nothing else makes the client panic: whenever an iteration does, the clock was set back during the iteration or some timer was started later than
the clock shows at the beginning of it. -/
theorem c96_cause {S} (v : Cli S) (j : Job) (m : Timed) (x : ClkIn) (h : v.stepClk j m x = none) : x.base.t < x.early ∨ ¬ m.Past x.early := by
  refine Classical.byContradiction fun hn => ?_
  obtain ⟨w', e, -⟩ := stepClk_past v j m x (t := x.early) (Classical.byContradiction fun hp => hn (.inr hp)) (Nat.le_refl _) (by omega)
  rw [e] at h
  cases h

/-- **C96**, finding: a download panics exactly in two cases: nothing arrives while the clock shows a time before the last progress, or the transfer is complete
while the clock shows a time before its start. -/
theorem c96_download {S} (v : Cli S) (j : Job) (w : Watches) (c : Cfg) (room : Nat) (ep : Ep) (s : RecvSt) (since : Nat) (auth : Option Bytes) (x : ClkIn) :
    v.stepClk j ⟨.down c room ep s since auth, w⟩ x = none ↔
      (x.base.recv = .wouldBlock ∧ x.base.t < since) ∨
      ((∃ n file, (v.step j (.down c room ep s since auth) x.base).1 = .done (.ok (n, auth)) file) ∧ x.base.t < w.started) := by
  unfold Cli.stepClk Cli.step
  simp only
  unfold Cli.downStepClk Cli.downStep
  cases hr : x.base.recv with
  | error => simp
  | wouldBlock =>
    by_cases hl : since ≤ x.base.t
    · simp only [elapsedIn_past hl]
      constructor
      · intro h; split at h <;> cases h
      · rintro (⟨-, h⟩ | ⟨⟨n, f, h⟩, -⟩)
        · omega
        · split at h <;> cases h
    · simp only [elapsedIn_future (show x.base.t < since by omega)]
      exact ⟨fun _ => .inl ⟨trivial, by omega⟩, fun _ => trivial⟩
  | dgram src dg =>
    simp only
    split
    · simp
    · split
      · simp
      · split
        · simp
        · split
          · by_cases hl : w.started ≤ x.base.t
            · simp only [elapsedIn_past hl]
              simp
              omega
            · simp only [elapsedIn_future (show x.base.t < w.started by omega)]
              simp
              omega
          · simp

/-- **C96**, finding: while a client waits for the answer to its request, a silent wait panics if the clock shows a time before the request. -/
theorem c96_query {S} (v : Cli S) (j : Job) (w : Watches) (q : Query) (x : ClkIn) (req : Bytes)
    (hp : v.put (v.initialSock j.opts).1 x.base.nonce x.base.sendOk (j.request q.exts) = some req) (hs : x.base.recv = .wouldBlock) :
    v.stepClk j ⟨.query q, w⟩ x = none ↔ x.base.t < q.start := by
  unfold Cli.stepClk Cli.queryStepClk
  simp only
  rw [hp, hs]
  simp only
  by_cases hl : q.start ≤ x.base.t
  · rw [elapsedIn_past hl]
    simp only
    constructor
    · intro h; split at h <;> cases h
    · intro h; omega
  · rw [elapsedIn_future (by omega)]
    exact ⟨fun _ => by omega, fun _ => rfl⟩

/-- **C96**, finding: an upload panics as soon as the clock shows a time before the last data packet (or before the last look at the rate). -/
theorem c96_upload {S} (v : Cli S) (j : Job) (w : Watches) (c : Cfg) (room : Nat) (ep : Ep) (s : SendSt) (since : Nat) (auth : Option Bytes) (x : ClkIn)
    (h : x.early < w.sent ∨ x.early < w.stats) :
    v.stepClk j ⟨.up c room ep s since auth, w⟩ x = none := by
  have hn : ∀ b, w.early x b = none := by
    intro b
    unfold Watches.early
    rcases h with h | h
    · rw [elapsedIn_future h]
      split
      · next h1 h2 => cases h2
      · rfl
    · rw [elapsedIn_future h]
  unfold Cli.stepClk Cli.upStepClk
  simp only
  rw [hn]

/-! ### Examples -/

namespace Toy

/-- An iteration during which the clock moves from `t` to `u`. -/
def spell (t u : Nat) (i : CliIn) : ClkIn := ⟨{ i with t := u }, t, true, true, true, true⟩

/-- The hypothesis of `c96_forward` is met by a complete upload. -/
example : Spec.Onward 0 [spell 1 2 (hear 0 (.ack 0)), spell 2 3 (quiet 0), spell 5 9 (hear 0 (.ack 1))] ∧
    result ((cli none).run (up .none) 0 ([spell 1 2 (hear 0 (.ack 0)), spell 2 3 (quiet 0), spell 5 9 (hear 0 (.ack 1))].map (·.base))).1 = some (3, []) := by
  refine ⟨⟨?_, ?_, ?_, ?_, ?_, ?_, trivial⟩, ?_⟩ <;> decide +kernel

/-- **C96**, finding: the server has sent the whole file, the client has written and confirmed it; the clock was set back by one unit in the meantime, and the client
panics instead of returning the result. Other builds return it. -/
theorem c96_complete_download_lost :
    (cli none).runClk (down .none) 4000 [spell 5000 5000 (hear 0 tsize), spell 4999 4999 (hear 0 (.data 1 [7, 8]))] = none ∧
    result ((cli none).run (down .none) 4000 [hear 5000 tsize, hear 4999 (.data 1 [7, 8])]).1 = some (2, [7, 8]) ∧
    (((cli none).runClk (down .none) 4000 [spell 5000 5000 (hear 0 tsize), spell 5000 5000 (hear 0 (.data 1 [7, 8]))]).map fun y => result y.1) =
      some (some (2, [7, 8])) := by
  refine ⟨Option.isNone_iff_eq_none.mp ?_, ?_, ?_⟩ <;> decide +kernel

/-- **C96**, finding: an upload panics at the first iteration after the clock was set back. -/
theorem c96_upload_lost :
    (cli none).runClk (up .none) 4000 [spell 5000 5000 (hear 0 (.ack 0)), spell 4999 5001 (hear 0 (.ack 1))] = none ∧
    result ((cli none).run (up .none) 4000 [hear 5000 (.ack 0), hear 5001 (.ack 1)]).1 = some (3, []) := by
  refine ⟨Option.isNone_iff_eq_none.mp ?_, ?_⟩ <;> decide +kernel

end Toy

end Tftp

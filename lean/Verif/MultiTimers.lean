import Verif.Multi
import Verif.ServerTimers
/-
C38 for the multi threaded server, and C51: the slots of finished threads are used again.
-/
namespace Tftp

theorem mrun_append {S} (v : Srv S) (s : MSt) (es fs : List MEv) :
    v.mrun s (es ++ fs) = ((v.mrun (v.mrun s es).1 fs).1, (v.mrun s es).2 ++ (v.mrun (v.mrun s es).1 fs).2) := by
  induction es generalizing s with
  | nil => simp [Srv.mrun]
  | cons e r ih => simp only [List.cons_append, Srv.mrun]; rw [ih]; simp

theorem mrun_snoc {S} (v : Srv S) (s : MSt) (es : List MEv) (e : MEv) :
    (v.mrun s (es ++ [e])).1 = (v.mstep (v.mrun s es).1 e).1 := by
  rw [mrun_append]; rfl

theorem mrun_ok {S} (v : Srv S) (es : List MEv) : (v.mrun MSt.init es).1.Ok := by
  induction es using snoc_induction with
  | nil => exact ⟨List.nodup_nil, fun x hx => by cases hx⟩
  | snoc es e ih => rw [mrun_snoc]; exact mstep_ok v _ e ih

/-- The time of an event, if it has one. -/
def MEv.time : MEv → Option Nat
  | .main t _ _ _ => some t
  | .thread _ (.check t _) | .thread _ (.send t _) | .thread _ (.dgram t _ _) => some t
  | _ => none

theorem sendBlock_turn {S} (v : Srv S) (c : Conn) (t : Nat) (io : SendIo) :
    (v.sendBlock c t io).1.lastUpdated = c.lastUpdated ∧ ¬ Spec.Progress c (v.sendBlock c t io).1 :=
  turns_updated (.turn c .none)

/-- What one event does to the clock of a connection: it is set when the connection is made, and when the transfer makes progress. -/
theorem mclock {S} (v : Srv S) (s : MSt) (hs : s.Ok) (e : MEv) (a : Addr) (c' : Conn)
    (h' : (v.mstep s e).1.conn a = some c') :
    (s.conn a = none ∧ e.time = some c'.lastUpdated) ∨
    ∃ c, s.conn a = some c ∧ ((Spec.Progress c c' ∧ e.time = some c'.lastUpdated) ∨
      (¬ Spec.Progress c c' ∧ c'.lastUpdated = c.lastUpdated)) := by
  have same : s.conn a = some c' → ∃ c, s.conn a = some c ∧ ((Spec.Progress c c' ∧ e.time = some c'.lastUpdated) ∨
      (¬ Spec.Progress c c' ∧ c'.lastUpdated = c.lastUpdated)) :=
    fun h => ⟨c', h, .inr ⟨progress_irrefl _, rfl⟩⟩
  obtain ⟨es, h1, h2⟩ := c50_multi_thread_step v s hs e a
  rw [h'] at h2
  replace h2 : (v.lifeRun true (s.conn a) es).1 = some c' := by rw [h2]
  cases h1 with
  | idle => exact .inr (same h2)
  | broken => exact .inr (same h2)
  | ignored => exact .inr (same h2)
  | other => exact .inr (same h2)
  | main t dg io =>
    cases hc : s.conn a with
    | some c => rw [hc] at h2; exact .inr (by rw [← hc]; exact same (by rw [hc]; exact h2))
    | none =>
      left
      refine ⟨rfl, ?_⟩
      rw [hc] at h2
      simp only [Srv.lifeRun, Srv.lifeStep] at h2
      cases hr : (v.newConn t dg io).result with
      | error x => rw [hr] at h2; cases h2
      | ok y =>
        obtain ⟨c1, out⟩ := y
        rw [hr] at h2
        cases h2
        obtain ⟨_, _, _, _, _, _, _, _, _, _, _, h1, _⟩ := newConn_ok hr
        rw [h1]; rfl
  | thread te pc =>
    right
    cases hc : s.conn a with
    | none =>
      exfalso
      rw [hc] at h2
      cases te <;> simp only [ThreadEv.life] at h2 <;> (try split at h2) <;> cases h2
    | some c =>
      rw [hc] at h2 same
      cases te with
      | check t io =>
        simp only [ThreadEv.life] at h2
        split at h2
        · simp only [Srv.lifeRun, Srv.lifeStep] at h2
          split at h2
          · cases h2
          · exact same h2
        · exact same h2
      | send t io =>
        simp only [ThreadEv.life] at h2
        split at h2
        · simp only [Srv.lifeRun, Srv.lifeStep] at h2
          split at h2
          · cases h2
            have := sendBlock_turn v c t io
            exact ⟨c, rfl, .inr ⟨this.2, this.1⟩⟩
          · exact same h2
        · exact same h2
      | dgram t dg io =>
        simp only [ThreadEv.life] at h2
        split at h2
        · simp only [Srv.lifeRun, Srv.lifeStep] at h2
          split at h2
          · exact same h2
          · cases h2
            have := handle_updated v c t dg io
            by_cases hp : Spec.Progress c (v.handle c t dg io).1
            · exact ⟨c, rfl, .inl ⟨hp, by rw [this.1 hp]; rfl⟩⟩
            · exact ⟨c, rfl, .inr ⟨hp, this.2 hp⟩⟩
        · exact same h2
      | idle => exact same h2
      | exit => exact same h2
      | broken =>
        simp only [ThreadEv.life] at h2
        split at h2
        · cases h2
        · exact same h2

/-- Specification: in the history `evs`, `t` is the time when the transfer of address `a` was created or last made progress, whichever
is later. -/
def Spec.MLastProgress {S} (v : Srv S) (a : Addr) (evs : List MEv) (t : Nat) : Prop :=
  ∃ pre e post, evs = pre ++ e :: post ∧ e.time = some t ∧
    ((v.mrun MSt.init pre).1.conn a = none ∧ (v.mrun MSt.init (pre ++ [e])).1.conn a ≠ none ∨
      ∃ c1 c2, (v.mrun MSt.init pre).1.conn a = some c1 ∧ (v.mrun MSt.init (pre ++ [e])).1.conn a = some c2 ∧ Spec.Progress c1 c2) ∧
    ∀ p e' q, post = p ++ e' :: q → ∃ c1 c2, (v.mrun MSt.init (pre ++ e :: p)).1.conn a = some c1 ∧
      (v.mrun MSt.init (pre ++ e :: p ++ [e'])).1.conn a = some c2 ∧ ¬ Spec.Progress c1 c2

theorem mlast_progress {S} (v : Srv S) (evs : List MEv) :
    ∀ a c, (v.mrun MSt.init evs).1.conn a = some c → Spec.MLastProgress v a evs c.lastUpdated := by
  induction evs using snoc_induction with
  | nil => intro a c h; cases h
  | snoc evs e ih =>
    intro a c h
    have h' := h
    rw [mrun_snoc] at h
    rcases mclock v _ (mrun_ok v evs) e a c h with ⟨h0, ht⟩ | ⟨c0, h0, ⟨hp, ht⟩ | ⟨hp, ht⟩⟩
    · exact ⟨evs, e, [], rfl, ht, .inl ⟨h0, by rw [h']; simp⟩, by simp⟩
    · exact ⟨evs, e, [], rfl, ht, .inr ⟨c0, c, h0, h', hp⟩, by simp⟩
    · obtain ⟨pre, e0, post, g1, g2, g3, g4⟩ := ih a c0 h0
      refine ⟨pre, e0, post ++ [e], by simp [g1], by rw [ht]; exact g2, g3, ?_⟩
      intro p e' q hq
      rcases List.eq_nil_or_concat q with rfl | ⟨q', x, rfl⟩
      · have := List.append_inj' hq rfl
        obtain ⟨rfl, hx⟩ := this
        cases hx
        refine ⟨c0, c, by rw [← g1]; exact h0, ?_, hp⟩
        rw [← g1]; exact h'
      · have hq' : post ++ [e] = (p ++ e' :: q') ++ [x] := by rw [hq]; simp
        have := List.append_inj' hq' rfl
        exact g4 p e' q' this.1

/-- **C38** for the multi threaded server: in every history, the check of a thread (made before every sending turn and every datagram)
at time `t` ends the transfer exactly if it is finished, has failed, or has made no progress (since `t0`, its creation or its last
progress) for longer than the request timeout. Nothing else ends a transfer, except a failure of its own socket. -/
theorem c38_multi_thread {S} (v : Srv S) (evs : List MEv) (a : Addr) (th : Thread) (c : Conn)
    (hth : (v.mrun MSt.init evs).1.thread a = some th) (h : (v.mrun MSt.init evs).1.conn a = some c) :
    ∃ t0, Spec.MLastProgress v a evs t0 ∧
      (th.pc = .top → ∀ t io, if c.finished = true ∨ c.failed = true ∨ v.cfg.requestTimeout < t - t0
        then (v.mrun MSt.init (evs ++ [.thread a (.check t io)])).1.conn a = none
        else (v.mrun MSt.init (evs ++ [.thread a (.check t io)])).1.conn a = some c) ∧
      (∀ e, (v.mrun MSt.init (evs ++ [e])).1.conn a = none →
        (∃ t io, e = .thread a (.check t io)) ∨ e = .thread a .broken) := by
  have hok := mrun_ok v evs
  refine ⟨c.lastUpdated, mlast_progress v evs a c h, ?_, ?_⟩
  · intro hpc t io
    rw [mrun_snoc, conn_eq_live, mstep_thread_same, hth]
    have hc : th.conn = c := by
      rw [conn_eq_live, hth] at h
      simpa [Thread.live, hpc] using h
    simp only [Option.map_some, if_true, Option.bind_some, Srv.threadStep, hpc]
    unfold Srv.timeout
    rw [hc]
    cases hfail : c.failed <;> cases hfin : c.finished
    · by_cases hle : t - c.lastUpdated ≤ v.cfg.requestTimeout
      · simp only [Bool.or_self, Bool.false_eq_true, false_or, if_false, if_pos hle, Nat.not_lt.mpr hle]
        cases c.side <;> simp [Thread.live]
      · simp only [Bool.or_self, Bool.false_eq_true, false_or, if_false, if_neg hle, Nat.lt_of_not_le hle, if_true]
        simp [Thread.live]
    all_goals simp [Thread.live]
  · intro e he
    rw [mrun_snoc] at he
    obtain ⟨es, h1, h2⟩ := c50_multi_thread_step v _ hok e a
    rw [h, he] at h2
    replace h2 : (v.lifeRun true (some c) es).1 = none := by rw [h2]
    cases h1 with
    | idle => cases h2
    | broken => cases h2
    | ignored => cases h2
    | other => cases h2
    | main t dg io => cases h2
    | thread te pc =>
      cases te with
      | check t io => exact .inl ⟨t, io, rfl⟩
      | broken => exact .inr rfl
      | idle => cases h2
      | exit => cases h2
      | send t io =>
        simp only [ThreadEv.life] at h2
        split at h2
        · simp only [Srv.lifeRun, Srv.lifeStep] at h2; split at h2 <;> cases h2
        · cases h2
      | dgram t dg io =>
        simp only [ThreadEv.life] at h2
        split at h2
        · simp only [Srv.lifeRun, Srv.lifeStep] at h2; split at h2 <;> cases h2
        · cases h2

/-! ### C51 -/

/-- Specification: the number of threads which are not known to be over. -/
def MSt.running (s : MSt) : Nat := (s.handles.filter fun x => x.2.pc ≠ .exited).length

/-- **C51**: a thread which is over does not occupy a slot for ever. A datagram from an address which has no thread, or whose thread has
exited, is handled exactly like in an empty server as soon as fewer than `max_connections` threads are running. -/
theorem c51_slot_reused {S} (v : Srv S) (s : MSt) (hs : s.Ok) (hup : s.up = true) (t : Nat) (a : Addr) (dg : Bytes) (io : NewIo)
    (hfree : ∀ th, s.thread a = some th → th.pc = .exited) (hroom : s.running < v.maxConn) :
    (v.mstep s (.main t a dg io)).1.conn a = (v.mstep MSt.init (.main t a dg io)).1.conn a ∧
    (v.mstep s (.main t a dg io)).2 = (v.mstep MSt.init (.main t a dg io)).2 := by
  have hthr : s.retain.thread a = none := by
    rw [retain_thread hs.1]
    cases h : s.thread a with
    | none => rfl
    | some th => simp [hfree th h]
  have hc : s.retain.conn a = none := by rw [conn_eq_live, hthr]; rfl
  have h1 : s.retain.handles.any (fun x => x.1 == a) = false := by
    rw [Bool.eq_false_iff]
    intro hh
    rw [thread_none_iff] at hthr
    apply hthr
    simpa [MSt.addrs] using hh
  have h2 : ¬ s.retain.handles.length ≥ v.maxConn := by
    have : s.retain.handles.length = s.running := rfl
    omega
  have h3 : MSt.init.retain = MSt.init := rfl
  have h4 : MSt.init.handles.any (fun x => x.1 == a) = false := rfl
  have h5 : ¬ MSt.init.handles.length ≥ v.maxConn := by simp only [MSt.init, List.length_nil]; omega
  have h6 : MSt.init.up = true := rfl
  simp only [Srv.mstep, hup, h3, h6, h1, h2, h4, h5, if_true, Bool.false_eq_true, if_false]
  cases (v.newConn t dg io).result with
  | error x => exact ⟨hc, rfl⟩
  | ok y =>
    obtain ⟨c, out⟩ := y
    simp only [MSt.conn, MSt.thread, List.find?_cons, beq_self_eq_true]
    exact ⟨trivial, trivial⟩

/-- **C51**, negatively: while the table is full of running threads, or the address has a thread which is not known to be over, a
datagram to the main socket has no effect on any connection and is not answered. -/
theorem c51_full_ignored {S} (v : Srv S) (s : MSt) (hs : s.Ok) (t : Nat) (a : Addr) (dg : Bytes) (io : NewIo)
    (h : v.maxConn ≤ s.running ∨ ∃ th, s.thread a = some th ∧ th.pc ≠ .exited) :
    (v.mstep s (.main t a dg io)).2 = [] ∧ ∀ b, (v.mstep s (.main t a dg io)).1.conn b = s.conn b := by
  simp only [Srv.mstep]
  split
  · split
    · exact ⟨rfl, retain_conn hs.1⟩
    · rename_i h1
      rcases h with h | ⟨th, h2, h3⟩
      · rw [if_pos (show s.retain.handles.length ≥ v.maxConn from h)]
        exact ⟨rfl, retain_conn hs.1⟩
      · exfalso
        have : s.retain.thread a = some th := by rw [retain_thread hs.1, h2]; simp [h3]
        apply h1
        rw [thread_some_iff (show s.retain.addrs.Nodup from (List.filter_sublist.map _).nodup hs.1)] at this
        simp only [List.any_eq_true, beq_iff_eq]
        exact ⟨_, this, rfl⟩
  · exact ⟨rfl, fun _ => rfl⟩

end Tftp

import Verif.Life
/-
The multi threaded server: src/server/multi_thread.rs. The main loop and one thread per connection, interleaved in any way.
C50, C51 and C52 for it.

A thread's loop is cut at its calls of the operating system: the time-out check, the sending turn, the wait for a datagram. Each cut is
one event, so the threads and the main loop interleave between any two of them. (They share nothing, so a finer interleaving is not
different.) `exited` is the moment from which `JoinHandle::is_finished` tells that the thread is over, which is later than the return
from the loop.
-/
namespace Tftp

/-- Where a thread is: src/server/multi_thread.rs:257-280 (reader) and 300-326 (writer). -/
inductive Pc | top | send | wait | over | exited
deriving DecidableEq

/-- A thread with its connection. -/
structure Thread where
  conn : Conn
  pc : Pc

/-- The main loop's table `handles`, and whether the main loop still runs (it returns when the main socket fails,
src/server/multi_thread.rs:122). -/
structure MSt where
  handles : List (Addr × Thread)
  up : Bool

/-- What a thread meets next. -/
inductive ThreadEv
  | check (t : Nat) (io : RecvIo)
  | send (t : Nat) (io : SendIo)
  | dgram (t : Nat) (dg : Bytes) (io : RecvIo)
  | idle
  | broken
  | exit

/-- One step of a thread; an event which does not belong to the place where the thread is does nothing.
src/server/multi_thread.rs:257-280 and 300-326. -/
def Srv.threadStep {S} (v : Srv S) (th : Thread) : ThreadEv → Thread × Option Bytes
  | .check t io => if th.pc = .top then
      if (v.timeout th.conn t io).1 then ({ th with pc := .over }, (v.timeout th.conn t io).2)
      else match th.conn.side with
        | .reader _ => ({ th with pc := .send }, (v.timeout th.conn t io).2)
        | .writer _ => ({ th with pc := .wait }, (v.timeout th.conn t io).2)
    else (th, none)
  | .send t io => if th.pc = .send then
      (⟨(v.sendBlock th.conn t io).1, .wait⟩, (v.sendBlock th.conn t io).2.1)
    else (th, none)
  | .dgram t dg io => if th.pc = .wait then
      (⟨(v.handle th.conn t dg io).1, .top⟩, (v.handle th.conn t dg io).2)
    else (th, none)
  | .idle => if th.pc = .wait then ({ th with pc := .top }, none) else (th, none)
  | .broken => if th.pc = .wait then ({ th with pc := .over }, none) else (th, none)
  | .exit => if th.pc = .over then ({ th with pc := .exited }, none) else (th, none)

/-- What happens to the server. -/
inductive MEv
  /-- lines 115-236: a datagram on the main socket -/
  | main (t : Nat) (a : Addr) (dg : Bytes) (io : NewIo)
  /-- lines 118-121: nothing for a second -/
  | idle
  /-- line 122 -/
  | broken
  /-- a step of the thread of `a` -/
  | thread (a : Addr) (e : ThreadEv)

/-- `handles.retain(|_, t| !t.is_finished())`: src/server/multi_thread.rs:119, 125. -/
def MSt.retain (s : MSt) : MSt := { s with handles := s.handles.filter fun x => x.2.pc ≠ .exited }

/-- One step of src/server/multi_thread.rs:111-238, or of a thread. -/
def Srv.mstep {S} (v : Srv S) (s : MSt) : MEv → MSt × List (Addr × Bytes)
  | .main t a dg io =>
    if s.up then
      let s := s.retain
      if s.handles.any (fun x => x.1 == a) then (s, [])
      else if s.handles.length ≥ v.maxConn then (s, [])
      else match (v.newConn t dg io).result with
        | .error _ => (s, (v.newConn t dg io).replies.map (a, ·))
        | .ok (c, out) => ({ s with handles := (a, ⟨c, .top⟩) :: s.handles }, ((v.newConn t dg io).replies ++ out).map (a, ·))
    else (s, [])
  | .idle => if s.up then (s.retain, []) else (s, [])
  | .broken => ({ s with up := false }, [])
  | .thread a e =>
    ({ s with handles := s.handles.map fun x => if x.1 = a then (a, (v.threadStep x.2 e).1) else x },
      s.handles.flatMap fun x => if x.1 = a then (v.threadStep x.2 e).2.toList.map (a, ·) else [])

/-- The state after a history, and everything sent in it. -/
def Srv.mrun {S} (v : Srv S) (s : MSt) : List MEv → MSt × List (Addr × Bytes)
  | [] => (s, [])
  | e :: es => ((v.mrun (v.mstep s e).1 es).1, (v.mstep s e).2 ++ (v.mrun (v.mstep s e).1 es).2)

def MSt.init : MSt := ⟨[], true⟩

def MSt.addrs (s : MSt) : List Addr := s.handles.map (·.1)

/-- The thread of an address. -/
def MSt.thread (s : MSt) (a : Addr) : Option Thread := (s.handles.find? fun x => x.1 == a).map (·.2)

/-- Specification: the connection of an address: that of its thread, as long as the thread has not left its loop. -/
def MSt.conn (s : MSt) (a : Addr) : Option Conn := match s.thread a with
  | some th => if th.pc = .over ∨ th.pc = .exited then none else some th.conn
  | none => none

/-! ### The table -/

theorem mstep_addrs {S} (v : Srv S) (s : MSt) (e : MEv) :
    (v.mstep s e).1.addrs.Sublist s.addrs ∨
    ∃ a, a ∉ s.retain.addrs ∧ s.retain.addrs.length < v.maxConn ∧ (v.mstep s e).1.addrs = a :: s.retain.addrs := by
  have hr : s.retain.addrs.Sublist s.addrs := List.filter_sublist.map _
  cases e with
  | main t a dg io =>
    simp only [Srv.mstep]
    split
    · split
      · exact .inl hr
      · rename_i h1
        split
        · exact .inl hr
        · rename_i h2
          split
          · exact .inl hr
          · refine .inr ⟨a, ?_, ?_, rfl⟩
            · simpa [MSt.addrs] using h1
            · simpa [MSt.addrs] using h2
    · exact .inl (.refl _)
  | idle => simp only [Srv.mstep]; split; (· exact .inl hr); (· exact .inl (.refl _))
  | broken => exact .inl (.refl _)
  | thread a te =>
    left
    have : (v.mstep s (.thread a te)).1.addrs = s.addrs := by
      simp only [Srv.mstep, MSt.addrs, List.map_map]
      apply List.map_congr_left
      intro x _
      simp only [Function.comp]
      split
      · rename_i h; exact h.symm
      · rfl
    rw [this]
    exact .refl _

theorem mstep_table {S} (v : Srv S) (s : MSt) (e : MEv) (h : s.handles.length ≤ v.maxConn ∧ s.addrs.Nodup) :
    (v.mstep s e).1.handles.length ≤ v.maxConn ∧ (v.mstep s e).1.addrs.Nodup := by
  have hl : ∀ x : MSt, x.handles.length = x.addrs.length := fun x => by simp [MSt.addrs]
  have hr : s.retain.addrs.Sublist s.addrs := List.filter_sublist.map _
  rw [hl] at h ⊢
  rcases mstep_addrs v s e with h1 | ⟨a, h1, h2, h3⟩
  · exact ⟨Nat.le_trans h1.length_le h.1, h1.nodup h.2⟩
  · rw [h3]
    exact ⟨h2, List.nodup_cons.mpr ⟨h1, hr.nodup h.2⟩⟩

theorem mrun_table {S} (v : Srv S) (evs : List MEv) (s : MSt) (h : s.handles.length ≤ v.maxConn ∧ s.addrs.Nodup) :
    (v.mrun s evs).1.handles.length ≤ v.maxConn ∧ (v.mrun s evs).1.addrs.Nodup := by
  induction evs generalizing s with
  | nil => exact h
  | cons e r ih => exact ih _ (mstep_table v s e h)

/-- **C22** for the multi threaded server: there are never more than `max_connections` threads, and never two for one address. -/
theorem c22_multi_thread_table {S} (v : Srv S) (evs : List MEv) :
    (v.mrun MSt.init evs).1.handles.length ≤ v.maxConn ∧ (v.mrun MSt.init evs).1.addrs.Nodup :=
  mrun_table v evs _ ⟨Nat.zero_le _, List.nodup_nil⟩

/-! ### Life of one connection -/

/-- What an event of a thread means for its connection, by the place where the thread is. -/
def ThreadEv.life (pc : Pc) : ThreadEv → List LifeEv
  | .check t io => if pc = .top then [.check t io] else []
  | .send t io => if pc = .send then [.tick t io] else []
  | .dgram t dg io => if pc = .wait then [.recv t dg io] else []
  | .broken => if pc = .wait then [.drop] else []
  | _ => []

/-- What an event of the server means for the address `a`. -/
inductive Spec.MOwn (a : Addr) : MEv → List LifeEv → Prop
  | main (t dg io) : Spec.MOwn a (.main t a dg io) [.start t dg io]
  | ignored (t b dg io) : Spec.MOwn a (.main t b dg io) []
  | idle : Spec.MOwn a .idle []
  | broken : Spec.MOwn a .broken []
  | thread (e : ThreadEv) (pc : Pc) : Spec.MOwn a (.thread a e) (e.life pc)
  | other (b : Addr) (e : ThreadEv) : b ≠ a → Spec.MOwn a (.thread b e) []

inductive Spec.MOwnAll (a : Addr) : List MEv → List LifeEv → Prop
  | nil : Spec.MOwnAll a [] []
  | cons {e es l ls} : Spec.MOwn a e l → Spec.MOwnAll a es ls → Spec.MOwnAll a (e :: es) (l ++ ls)

theorem thread_of_mem {l : List (Addr × Thread)} (hl : (l.map (·.1)).Nodup) {a : Addr} {th : Thread} (h : (a, th) ∈ l) :
    (l.find? fun x => x.1 == a) = some (a, th) := by
  induction l with
  | nil => cases h
  | cons x r ih =>
    simp only [List.map_cons, List.nodup_cons, List.mem_map, not_exists, not_and] at hl
    rw [List.find?_cons]
    rcases List.mem_cons.mp h with h | h
    · subst h; simp
    · have : (x.1 == a) = false := by
        simp only [beq_eq_false_iff_ne]
        exact fun e => hl.1 _ h e.symm
      rw [this]
      exact ih hl.2 h

theorem thread_none_iff {s : MSt} {a : Addr} : s.thread a = none ↔ a ∉ s.addrs := by
  simp only [MSt.thread, MSt.addrs, Option.map_eq_none_iff, List.find?_eq_none, beq_iff_eq, List.mem_map, not_exists, not_and]

theorem thread_some_iff {s : MSt} (hs : s.addrs.Nodup) {a : Addr} {th : Thread} :
    s.thread a = some th ↔ (a, th) ∈ s.handles := by
  constructor
  · intro h
    unfold MSt.thread at h
    obtain ⟨⟨b, th'⟩, h1, h2⟩ := Option.map_eq_some_iff.mp h
    have := List.find?_some h1
    simp only [beq_iff_eq] at this
    simp only at h2
    subst this; subst h2
    exact List.mem_of_find?_eq_some h1
  · intro h
    unfold MSt.thread
    rw [thread_of_mem hs h]
    rfl

theorem retain_thread {s : MSt} (hs : s.addrs.Nodup) (a : Addr) :
    s.retain.thread a = match s.thread a with
      | some th => if th.pc = .exited then none else some th
      | none => none := by
  have hr : s.retain.addrs.Nodup := (List.filter_sublist.map _).nodup hs
  cases h : s.thread a with
  | none =>
    simp only
    rw [thread_none_iff] at h ⊢
    exact fun h' => h (((List.filter_sublist.map _ : s.retain.addrs.Sublist s.addrs)).subset h')
  | some th =>
    have hm := (thread_some_iff hs).mp h
    simp only
    split
    · rename_i hx
      rw [thread_none_iff]
      intro h'
      obtain ⟨⟨b, th'⟩, h1, h2⟩ := List.mem_map.mp h'
      simp only at h2
      subst h2
      obtain ⟨h3, h4⟩ := List.mem_filter.mp h1
      have := (thread_some_iff hs).mpr h3
      rw [h] at this
      cases this
      simp [hx] at h4
    · rename_i hx
      rw [thread_some_iff hr]
      exact List.mem_filter.mpr ⟨hm, by simpa using hx⟩

theorem retain_conn {s : MSt} (hs : s.addrs.Nodup) (a : Addr) : s.retain.conn a = s.conn a := by
  unfold MSt.conn
  rw [retain_thread hs]
  cases s.thread a with
  | none => rfl
  | some th =>
    simp only
    by_cases h : th.pc = .exited
    · simp [h]
    · simp [h]

theorem mstep_thread_same {S} (v : Srv S) (s : MSt) (a b : Addr) (e : ThreadEv) :
    (v.mstep s (.thread b e)).1.thread a =
      (s.thread a).map fun th => if b = a then (v.threadStep th e).1 else th := by
  simp only [MSt.thread, Srv.mstep]
  generalize s.handles = l
  induction l with
  | nil => rfl
  | cons z r ih =>
    obtain ⟨d, th⟩ := z
    rw [List.map_cons]
    by_cases hd : d = a
    · subst hd
      by_cases hb : d = b
      · subst hb; simp
      · rw [if_neg hb]
        simp only [List.find?_cons, beq_self_eq_true, Option.map_some]
        rw [if_neg (fun e : b = d => hb e.symm)]
    · have hd' : (d == a) = false := by simpa using hd
      rw [List.find?_cons (a := (d, th)), hd']
      simp only
      rw [← ih]
      by_cases hb : d = b
      · subst hb
        rw [if_pos rfl, List.find?_cons, hd']
      · rw [if_neg hb, List.find?_cons, hd']

theorem mstep_thread_sent {S} (v : Srv S) (s : MSt) (hs : s.addrs.Nodup) (a b : Addr) (e : ThreadEv) :
    sentTo a (v.mstep s (.thread b e)).2 =
      ((s.thread a).map fun th => if b = a then (v.threadStep th e).2.toList else []).getD [] := by
  simp only [MSt.thread, Srv.mstep]
  unfold MSt.addrs at hs
  generalize s.handles = l at hs
  induction l with
  | nil => rfl
  | cons z r ih =>
    obtain ⟨d, th⟩ := z
    simp only [List.map_cons, List.nodup_cons, List.mem_map, not_exists, not_and] at hs
    rw [List.flatMap_cons, sentTo_append]
    by_cases hd : d = a
    · subst hd
      have hz : sentTo d (r.flatMap fun x => if x.1 = b then (v.threadStep x.2 e).2.toList.map (b, ·) else []) = [] := by
        apply sentTo_nil
        intro x hx
        obtain ⟨y, h1, h2⟩ := List.mem_flatMap.mp hx
        split at h2
        · rename_i hy
          obtain ⟨z, -, rfl⟩ := List.mem_map.mp h2
          rw [← hy]
          exact hs.1 y h1
        · cases h2
      rw [hz]
      simp only [List.find?_cons, beq_self_eq_true, Option.map_some, Option.getD_some, List.append_nil]
      by_cases hb : d = b
      · subst hb; simp [sentTo_self]
      · rw [if_neg hb, if_neg (fun e => hb e.symm)]; rfl
    · have hd' : (d == a) = false := by simpa using hd
      rw [List.find?_cons, hd']
      simp only
      rw [← ih hs.2]
      by_cases hb : d = b
      · subst hb; simp [sentTo_other hd]
      · rw [if_neg hb]; rfl

/-- A thread in front of a sending turn or a datagram has passed the time-out check. -/
def Thread.Ok (th : Thread) : Prop :=
  (th.pc = .send → th.conn.active = true ∧ th.conn.deaf = false) ∧ (th.pc = .wait → th.conn.deaf = false)

theorem newConn_no_replies {S} (v : Srv S) (t : Nat) (dg : Bytes) (io : NewIo) (y : Conn × List Bytes)
    (h : (v.newConn t dg io).result = .ok y) : (v.newConn t dg io).replies = [] := by
  simp only [Srv.newConn] at h ⊢
  repeat' split at h
  all_goals first | cases h | skip
  all_goals simp_all

theorem timeout_kept {S} {v : Srv S} {c : Conn} {t : Nat} {io : RecvIo} (h : (v.timeout c t io).1 = false) :
    c.failed = false ∧ c.finished = false ∧ (v.timeout c t io).2 = none := by
  unfold Srv.timeout at *
  split at h
  · cases h
  · rename_i h1
    split at h
    · rename_i h2
      rw [if_neg h1, if_pos h2]
      simp only [Bool.or_eq_true, not_or, Bool.not_eq_true] at h1
      exact ⟨h1.1, h1.2, rfl⟩
    · cases h

theorem sendBlock_deaf {S} (v : Srv S) (c : Conn) (t : Nat) (io : SendIo) (h : c.active = true) :
    (v.sendBlock c t io).1.deaf = false := by
  unfold Conn.active at h
  cases hs : c.side with
  | writer s => rw [hs] at h; cases h
  | reader s =>
    rw [hs] at h
    have hf : s.finished = false := by
      simp only [Conn.failed, Conn.finished, hs] at h
      cases hh : s.finished
      · rfl
      · rw [hh] at h; simp at h
    unfold Srv.sendBlock
    simp only [hs, Conn.deaf]
    unfold serverSendTick
    simp only
    split <;> exact hf

theorem threadStep_ok {S} (v : Srv S) (th : Thread) (e : ThreadEv) (h : th.Ok) : (v.threadStep th e).1.Ok := by
  cases e with
  | check t io =>
    simp only [Srv.threadStep]
    split
    · split
      · exact ⟨(fun h => by cases h), (fun h => by cases h)⟩
      · rename_i h1
        obtain ⟨h2, h3, -⟩ := timeout_kept (Bool.eq_false_iff.mpr h1)
        cases hs : th.conn.side with
        | reader s =>
          refine ⟨fun _ => ⟨?_, ?_⟩, fun h => by cases h⟩
          · simp only [Conn.active, hs, h2, h3]; rfl
          · simp only [Conn.finished, hs] at h3; simp only [Conn.deaf, hs, h3]
        | writer s =>
          refine ⟨(fun h => by cases h), fun _ => ?_⟩
          simp only [Conn.finished, Conn.failed, hs] at h2 h3
          simp only [Conn.deaf, hs, h2, h3]; rfl
    · exact h
  | send t io =>
    simp only [Srv.threadStep]
    split
    · rename_i hp
      exact ⟨(fun h => by cases h), fun _ => sendBlock_deaf v _ _ _ (h.1 hp).1⟩
    · exact h
  | dgram t dg io =>
    simp only [Srv.threadStep]
    split
    · exact ⟨(fun h => by cases h), (fun h => by cases h)⟩
    · exact h
  | idle =>
    simp only [Srv.threadStep]
    split
    · exact ⟨(fun h => by cases h), (fun h => by cases h)⟩
    · exact h
  | broken =>
    simp only [Srv.threadStep]
    split
    · exact ⟨(fun h => by cases h), (fun h => by cases h)⟩
    · exact h
  | exit =>
    simp only [Srv.threadStep]
    split
    · exact ⟨(fun h => by cases h), (fun h => by cases h)⟩
    · exact h

/-- The connection of a thread. -/
def Thread.live (th : Thread) : Option Conn := if th.pc = .over ∨ th.pc = .exited then none else some th.conn

theorem threadStep_life {S} (v : Srv S) (th : Thread) (e : ThreadEv) (h : th.Ok) :
    v.lifeRun true th.live (e.life th.pc) = ((v.threadStep th e).1.live, (v.threadStep th e).2.toList) := by
  have nothing : ∀ x : Option Conn, v.lifeRun true x [] = (x, []) := fun _ => rfl
  cases e with
  | check t io =>
    simp only [ThreadEv.life, Srv.threadStep]
    split
    · rename_i hp
      have hl : th.live = some th.conn := by simp [Thread.live, hp]
      rw [hl]
      simp only [Srv.lifeRun, Srv.lifeStep, List.append_nil]
      split
      · simp [Thread.live]
      · rename_i h1
        cases hs : th.conn.side <;> simp [Thread.live]
    · rfl
  | send t io =>
    simp only [ThreadEv.life, Srv.threadStep]
    split
    · rename_i hp
      have hl : th.live = some th.conn := by simp [Thread.live, hp]
      rw [hl]
      simp [Srv.lifeRun, Srv.lifeStep, Thread.live, (h.1 hp).1]
    · rfl
  | dgram t dg io =>
    simp only [ThreadEv.life, Srv.threadStep]
    split
    · rename_i hp
      have hl : th.live = some th.conn := by simp [Thread.live, hp]
      rw [hl]
      simp [Srv.lifeRun, Srv.lifeStep, Thread.live, h.2 hp]
    · rfl
  | idle =>
    simp only [ThreadEv.life, Srv.threadStep, nothing]
    split
    · rename_i hp; simp [Thread.live, hp]
    · rfl
  | broken =>
    simp only [ThreadEv.life, Srv.threadStep]
    split
    · rename_i hp; simp [Srv.lifeRun, Srv.lifeStep, Thread.live, hp]
    · rfl
  | exit =>
    simp only [ThreadEv.life, Srv.threadStep, nothing]
    split
    · rename_i hp; simp [Thread.live, hp]
    · rfl

def MSt.Ok (s : MSt) : Prop := s.addrs.Nodup ∧ ∀ x ∈ s.handles, x.2.Ok

theorem mstep_ok {S} (v : Srv S) (s : MSt) (e : MEv) (h : s.Ok) : (v.mstep s e).1.Ok := by
  constructor
  · have hr : s.retain.addrs.Sublist s.addrs := List.filter_sublist.map _
    rcases mstep_addrs v s e with h1 | ⟨a, h1, h2, h3⟩
    · exact h1.nodup h.1
    · rw [h3]; exact List.nodup_cons.mpr ⟨h1, hr.nodup h.1⟩
  · have hr : ∀ x ∈ s.retain.handles, x.2.Ok := fun x hx => h.2 x (List.mem_filter.mp hx).1
    cases e with
    | main t a dg io =>
      simp only [Srv.mstep]
      split
      · split
        · exact hr
        · split
          · exact hr
          · split
            · exact hr
            · intro x hx
              rcases List.mem_cons.mp hx with hx | hx
              · subst hx; exact ⟨(fun h => by cases h), (fun h => by cases h)⟩
              · exact hr x hx
      · exact h.2
    | idle => simp only [Srv.mstep]; split; (· exact hr); (· exact h.2)
    | broken => exact h.2
    | thread a te =>
      intro x hx
      simp only [Srv.mstep, List.mem_map] at hx
      obtain ⟨y, hy, rfl⟩ := hx
      split
      · exact threadStep_ok v _ _ (h.2 y hy)
      · exact h.2 y hy

theorem conn_eq_live (s : MSt) (a : Addr) : s.conn a = (s.thread a).bind Thread.live := by
  unfold MSt.conn Thread.live
  cases s.thread a <;> rfl

/-- **C50** (multi threaded server): one step of the main loop or of any thread is for an address `a` one of `a`'s own events. -/
theorem c50_multi_thread_step {S} (v : Srv S) (s : MSt) (hs : s.Ok) (e : MEv) (a : Addr) :
    ∃ es, Spec.MOwn a e es ∧ v.lifeRun true (s.conn a) es = ((v.mstep s e).1.conn a, sentTo a (v.mstep s e).2) := by
  cases e with
  | idle =>
    refine ⟨_, .idle, ?_⟩
    simp only [Srv.mstep]
    split
    · simp only [retain_conn hs.1]; rfl
    · rfl
  | broken => exact ⟨_, .broken, rfl⟩
  | thread b e =>
    by_cases hb : b = a
    · subst hb
      cases ht : s.thread b with
      | none =>
        refine ⟨e.life .exited, .thread e .exited, ?_⟩
        have : e.life .exited = [] := by cases e <;> rfl
        rw [this, conn_eq_live, conn_eq_live, mstep_thread_same, mstep_thread_sent v s hs.1, ht]
        rfl
      | some th =>
        refine ⟨e.life th.pc, .thread e th.pc, ?_⟩
        have hok := hs.2 _ ((thread_some_iff hs.1).mp ht)
        rw [conn_eq_live, conn_eq_live, mstep_thread_same, mstep_thread_sent v s hs.1, ht]
        simpa using threadStep_life v th e hok
    · refine ⟨_, .other b e hb, ?_⟩
      rw [conn_eq_live, conn_eq_live, mstep_thread_same, mstep_thread_sent v s hs.1]
      simp only [hb, if_false]
      cases s.thread a <;> rfl
  | main t b dg io =>
    have hrn : s.retain.addrs.Nodup := (List.filter_sublist.map _).nodup hs.1
    cases hup : s.up with
    | false => exact ⟨_, .ignored t b dg io, by simp only [Srv.mstep, hup, Bool.false_eq_true, if_false]; rfl⟩
    | true =>
      by_cases h1 : s.retain.handles.any (fun x => x.1 == b) = true
      · exact ⟨_, .ignored t b dg io, by simp only [Srv.mstep, hup, h1, if_true, retain_conn hs.1]; rfl⟩
      · by_cases h2 : s.retain.handles.length ≥ v.maxConn
        · refine ⟨_, .ignored t b dg io, ?_⟩
          simp only [Srv.mstep, hup, if_true, h1, Bool.false_eq_true, if_false, h2, retain_conn hs.1]; rfl
        · have hthr : s.retain.thread b = none := by
            rw [thread_none_iff]
            simpa [MSt.addrs] using h1
          by_cases hb : b = a
          · subst hb
            refine ⟨_, .main t dg io, ?_⟩
            have hc : s.conn b = none := by rw [← retain_conn hs.1, conn_eq_live, hthr]; rfl
            rw [hc]
            simp only [Srv.mstep, hup, if_true, h1, Bool.false_eq_true, if_false, h2, Srv.lifeRun, Srv.lifeStep, List.append_nil]
            cases hr : (v.newConn t dg io).result with
            | error x => simp only [sentTo_self, retain_conn hs.1, hc]
            | ok y =>
              obtain ⟨c, out⟩ := y
              simp only [sentTo_self, newConn_no_replies v t dg io _ hr, List.nil_append, MSt.conn, MSt.thread, List.find?_cons,
                beq_self_eq_true, Option.map_some]
              rfl
          · refine ⟨_, .ignored t b dg io, ?_⟩
            simp only [Srv.mstep, hup, if_true, h1, Bool.false_eq_true, if_false, h2, Srv.lifeRun]
            cases hr : (v.newConn t dg io).result with
            | error x => simp only [sentTo_other hb, retain_conn hs.1]
            | ok y =>
              obtain ⟨c, out⟩ := y
              have hb' : (b == a) = false := by simpa using hb
              rw [← retain_conn hs.1]
              simp only [sentTo_other hb, MSt.conn, MSt.thread, List.find?_cons, hb']

/-- **C50** (multi threaded server): in every history, with every interleaving of the threads, an address `a` gets exactly what it would
get from a server of its own which sees only `a`'s datagrams, turns and time-outs. -/
theorem c50_multi_thread {S} (v : Srv S) (evs : List MEv) (a : Addr) :
    ∃ es, Spec.MOwnAll a evs es ∧
      v.lifeRun true none es = ((v.mrun MSt.init evs).1.conn a, sentTo a (v.mrun MSt.init evs).2) := by
  have key : ∀ s : MSt, s.Ok → ∃ es, Spec.MOwnAll a evs es ∧
      v.lifeRun true (s.conn a) es = ((v.mrun s evs).1.conn a, sentTo a (v.mrun s evs).2) := by
    induction evs with
    | nil => exact fun s _ => ⟨[], .nil, rfl⟩
    | cons e r ih =>
      intro s hs
      obtain ⟨l, h1, h2⟩ := c50_multi_thread_step v s hs e a
      obtain ⟨ls, h3, h4⟩ := ih _ (mstep_ok v s e hs)
      refine ⟨l ++ ls, .cons h1 h3, ?_⟩
      rw [lifeRun_append, h2]
      simp only
      rw [h4]
      simp only [Srv.mrun, sentTo_append]
  exact key MSt.init ⟨List.nodup_nil, fun x hx => by cases hx⟩

end Tftp

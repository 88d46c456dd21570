import Verif.EndUp
import Verif.EndDown
import Verif.Multi
/-
C52, C53 for the two servers with all their clients: the client of Client.lean at the address `a`, the whole single threaded server
(Server.lean) or multi threaded server (Multi.lean), and a network between them. Datagrams of all other addresses are arbitrary, and so are the number and
the behaviour of the other clients.
-/
namespace Tftp
open Spec

variable {S : SigScheme}

/-- What the network and the record of connections become when the server has taken a step, after which `new` is the connection of our
client and `out` was sent to our client. `opened`: what the operating system did, if the step made a connection at the address `ep`. -/
def Parties.watch (v : Parties S) (w : World) (ep : Ep) (opened : List (Ep × NewIo)) (new : Option Conn) (out : List Bytes) : World :=
  match w.live, new with
  | some l, some c => { w with conns := setAt w.conns l c, down := out.map (⟨l, ·, w.clock l⟩) ++ w.down }
  | some l, none => { w with live := none, down := out.map (⟨l, ·, w.clock l⟩) ++ w.down }
  | none, some c => { w with
      conns := setAt w.conns ep c
      live := some ep
      down := out.map (⟨ep, ·, w.clockOf c⟩) ++ w.down
      acc := out.map (ep, ·) ++ w.acc
      started := opened ++ w.started }
  | none, none => { w with down := out.map (⟨v.cli.cfg.endpoint, ·, w.sent⟩) ++ w.down }

/-- A server with all its clients, and our client with the network. -/
structure Whole (σ : Type) where
  srv : σ
  world : World

/-- An event at the server (`ep`: the address of a new connection's socket), or an iteration of our client. -/
inductive WholeEv (ε : Type)
  | server (ep : Ep) (e : ε)
  | client (i : CliIn)

def SrvEv.opened (a : Addr) (ep : Ep) : SrvEv → List (Ep × NewIo)
  | .main _ b _ io => if b = a then [(ep, io)] else []
  | _ => []

def MEv.opened (a : Addr) (ep : Ep) : MEv → List (Ep × NewIo)
  | .main _ b _ io => if b = a then [(ep, io)] else []
  | _ => []

/-- The single threaded server: src/server/single_thread.rs. -/
def Parties.single (v : Parties S) (a : Addr) (f : Whole SrvSt) : WholeEv SrvEv → Whole SrvSt
  | .server ep e => ⟨(v.srv.step f.srv e).1,
      v.watch f.world ep (e.opened a ep) ((v.srv.step f.srv e).1.conn a) (sentTo a (v.srv.step f.srv e).2)⟩
  | .client i => ⟨f.srv, v.step f.world (.client i)⟩

/-- The multi threaded server: src/server/multi_thread.rs. -/
def Parties.multi (v : Parties S) (a : Addr) (f : Whole MSt) : WholeEv MEv → Whole MSt
  | .server ep e => ⟨(v.srv.mstep f.srv e).1,
      v.watch f.world ep (e.opened a ep) ((v.srv.mstep f.srv e).1.conn a) (sentTo a (v.srv.mstep f.srv e).2)⟩
  | .client i => ⟨f.srv, v.step f.world (.client i)⟩

/-- What is assumed: `Spec.Allowed` for the datagrams which carry our client's address, nothing for all others. -/
def Spec.AllowedSingle (v : Parties S) (late : Option Nat) (a : Addr) (w : World) : WholeEv SrvEv → Prop
  | .server ep (.main t b dg io) => b = a → Allowed v late w (.server ep (.start t dg io))
  | .server ep (.client t b dg io) => b = a → Allowed v late w (.server ep (.recv t dg io))
  | .server _ _ => True
  | .client i => Allowed v late w (.client i)

def Spec.AllowedMulti (v : Parties S) (late : Option Nat) (a : Addr) (w : World) : WholeEv MEv → Prop
  | .server ep (.main t b dg io) => b = a → Allowed v late w (.server ep (.start t dg io))
  | .server ep (.thread b (.dgram t dg io)) => b = a → Allowed v late w (.server ep (.recv t dg io))
  | .server _ _ => True
  | .client i => Allowed v late w (.client i)

/-- What can be reached with the single threaded server. -/
inductive Spec.ReachSingle (v : Parties S) (late : Option Nat) (a : Addr) : Whole SrvSt → Prop
  | init (t : Nat) : ReachSingle v late a ⟨⟨[], 0⟩, v.init t⟩
  | step (f : Whole SrvSt) (e : WholeEv SrvEv) : ReachSingle v late a f → AllowedSingle v late a f.world e → ReachSingle v late a (v.single a f e)

/-- What can be reached with the multi threaded server. -/
inductive Spec.ReachMulti (v : Parties S) (late : Option Nat) (a : Addr) : Whole MSt → Prop
  | init (t : Nat) : ReachMulti v late a ⟨MSt.init, v.init t⟩
  | step (f : Whole MSt) (e : WholeEv MEv) : ReachMulti v late a f → AllowedMulti v late a f.world e → ReachMulti v late a (v.multi a f e)

/-! ### Simulation by the machine of EndWorld.lean -/

/-- The same, but for the order of the list of the datagrams sent. -/
structure Alike (w f : World) : Prop where
  conns : f.conns = w.conns
  live : f.live = w.live
  cli : f.cli = w.cli
  up : f.up = w.up
  acc : f.acc = w.acc
  started : f.started = w.started
  sent : f.sent = w.sent
  down : ∀ p, p ∈ w.down ↔ p ∈ f.down

theorem Alike.refl (w : World) : Alike w w := ⟨rfl, rfl, rfl, rfl, rfl, rfl, rfl, fun _ => .rfl⟩

theorem Alike.clockOf {w f : World} (h : Alike w f) (c : Conn) : f.clockOf c = w.clockOf c := by
  unfold World.clockOf; rw [h.sent]

theorem Alike.clock {w f : World} (h : Alike w f) (e : Ep) : f.clock e = w.clock e := by
  unfold World.clock; rw [h.conns, h.sent]; cases w.conns e <;> simp [h.clockOf]

theorem ofTransfer_congr {v : Parties S} {w f : World} (h : f.conns = w.conns) : OfTransfer v w = OfTransfer v f := by
  funext src d
  unfold OfTransfer
  rw [h]

theorem Alike.allowed {v : Parties S} {late : Option Nat} {w f : World} (h : Alike w f) (e : WEv) (ha : Allowed v late f e) : Allowed v late w e := by
  cases e with
  | server ep e =>
    cases e with
    | start t dg io =>
      simp only [Allowed] at ha ⊢
      rw [← h.live, ← h.up, ← h.conns]
      exact ha
    | recv t dg io =>
      simp only [Allowed] at ha ⊢
      intro l hl
      have := ha l (by rw [h.live]; exact hl)
      rw [h.up, h.clock, h.conns] at this
      exact this
    | tick => trivial
    | check => trivial
    | drop => trivial
  | client i =>
    simp only [Allowed] at ha ⊢
    refine ⟨ha.1, fun src d hd => ?_⟩
    have := ha.2 src d hd
    rw [h.cli] at this
    cases hc : w.cli with
    | query q =>
      rw [hc] at this
      obtain ⟨h0, h3⟩ := this
      exact ⟨h0.imp (fun ⟨p, h1, h2⟩ => ⟨p, (h.down p).mpr h1, h2⟩) id, by rw [← h.acc, ofTransfer_congr h.conns]; exact h3⟩
    | up _ _ ep _ _ _ =>
      rw [hc] at this
      intro hs
      exact (this hs).imp (fun ⟨p, h1, h2, h3, h4⟩ => ⟨p, (h.down p).mpr h1, h2, h3, by rw [← h.clock]; exact h4⟩) id
    | down _ _ ep _ _ _ =>
      rw [hc] at this
      intro hs
      exact (this hs).imp (fun ⟨p, h1, h2, h3, h4⟩ => ⟨p, (h.down p).mpr h1, h2, h3, by rw [← h.clock]; exact h4⟩) id
    | done _ _ => trivial

theorem Alike.client {v : Parties S} {w f : World} (h : Alike w f) (i : CliIn) : Alike (v.step w (.client i)) (v.step f (.client i)) := by
  refine ⟨h.conns, h.live, ?_, ?_, h.acc, h.started, ?_, h.down⟩
  · simp only [Parties.step, h.cli]
  · simp only [Parties.step, h.cli, h.up]
    congr 2
    funext x
    rw [h.clock]
  · simp only [Parties.step, h.cli, h.sent]

/-- The connection the machine of EndWorld.lean is in. -/
def World.now (w : World) : Option Conn := w.live.bind w.conns

/-- The recorded connection exists. -/
def World.Tidy (w : World) : Prop := ∀ l, w.live = some l → (w.conns l).isSome = true

/-- One event of the connection's life. -/
theorem watch_one {v : Parties S} {w f : World} (h : Alike w f) (ht : w.Tidy) (ep : Ep) (opened : List (Ep × NewIo)) (x : LifeEv)
    (ho : w.live = none → ∀ c, (v.srv.lifeStep v.stops none x).1 = some c → opened = x.opened ep) :
    Alike (v.step w (.server ep x)) (v.watch f ep opened (v.srv.lifeStep v.stops w.now x).1 (v.srv.lifeStep v.stops w.now x).2) ∧
    (v.step w (.server ep x)).Tidy ∧ (v.step w (.server ep x)).now = (v.srv.lifeStep v.stops w.now x).1 := by
  cases hl : w.live with
  | some l =>
    obtain ⟨c, hc⟩ := Option.isSome_iff_exists.mp (ht l hl)
    have hn : w.now = some c := by simp [World.now, hl, hc]
    have hfl : f.live = some l := by rw [h.live, hl]
    rw [hn]
    cases hs : (v.srv.lifeStep v.stops (some c) x).1 with
    | some c' =>
      have e1 : v.step w (.server ep x) = { w with conns := setAt w.conns l c', down := (v.srv.lifeStep v.stops (some c) x).2.map (⟨l, ·, w.clock l⟩) ++ w.down } := by
        simp only [Parties.step, hl, hc, hs]
      rw [e1]
      simp only [Parties.watch, hfl, h.clock]
      refine ⟨⟨?_, ?_, h.cli, h.up, h.acc, h.started, h.sent, ?_⟩, ?_, ?_⟩
      · show setAt f.conns l c' = _; rw [h.conns]
      · exact hl.symm
      · intro p; simp only [List.mem_append, h.down p]
      · intro m hm
        have : m = l := by simpa [hl] using hm.symm
        subst this
        show (setAt w.conns m c' m).isSome = true
        rw [setAt_same]; rfl
      · simp only [World.now, hl, Option.bind_some, setAt_same]
    | none =>
      have e1 : v.step w (.server ep x) = { w with live := none, down := (v.srv.lifeStep v.stops (some c) x).2.map (⟨l, ·, w.clock l⟩) ++ w.down } := by
        simp only [Parties.step, hl, hc, hs]
      rw [e1]
      simp only [Parties.watch, hfl, h.clock]
      refine ⟨⟨h.conns, rfl, h.cli, h.up, h.acc, h.started, h.sent, ?_⟩, ?_, rfl⟩
      · intro p; simp only [List.mem_append, h.down p]
      · intro m hm; cases hm
  | none =>
    have hn : w.now = none := by simp [World.now, hl]
    have hfl : f.live = none := by rw [h.live, hl]
    rw [hn]
    cases hs : (v.srv.lifeStep v.stops none x).1 with
    | some c =>
      have hp : v.srv.lifeStep v.stops none x = (some c, (v.srv.lifeStep v.stops none x).2) := by rw [← hs]
      have e1 : v.step w (.server ep x) = { w with
          conns := setAt w.conns ep c
          live := some ep
          down := (v.srv.lifeStep v.stops none x).2.map (⟨ep, ·, w.clockOf c⟩) ++ w.down
          acc := (v.srv.lifeStep v.stops none x).2.map (ep, ·) ++ w.acc
          started := x.opened ep ++ w.started } := by
        simp only [Parties.step, hl]
        rw [hp]
      rw [e1, ho hl c hs]
      simp only [Parties.watch, hfl, h.clockOf]
      refine ⟨⟨?_, rfl, h.cli, h.up, ?_, ?_, h.sent, ?_⟩, ?_, ?_⟩
      · show setAt f.conns ep c = _; rw [h.conns]
      · show _ ++ f.acc = _; rw [h.acc]
      · show _ ++ f.started = _; rw [h.started]
      · intro p; simp only [List.mem_append, h.down p]
      · intro m hm
        have : m = ep := by simpa using hm.symm
        subst this
        show (setAt w.conns m c m).isSome = true
        rw [setAt_same]; rfl
      · simp only [World.now, Option.bind_some, setAt_same]
    | none =>
      have hp : v.srv.lifeStep v.stops none x = (none, (v.srv.lifeStep v.stops none x).2) := Prod.ext hs rfl
      have e1 : v.step w (.server ep x) = { w with
          down := (v.srv.lifeStep v.stops none x).2.map (⟨v.cli.cfg.endpoint, ·, w.sent⟩) ++ w.down } := by
        simp only [Parties.step, hl]
        rw [hp]
      rw [e1]
      simp only [Parties.watch, hfl, h.sent]
      refine ⟨⟨h.conns, hl.symm, h.cli, h.up, h.acc, h.started, rfl, ?_⟩, ?_, ?_⟩
      · intro p; simp only [List.mem_append, h.down p]
      · intro m hm; rw [hl] at hm; cases hm
      · simp only [World.now, hl, Option.bind_none]

/-- No event. -/
theorem watch_none {v : Parties S} {w f : World} (h : Alike w f) (ht : w.Tidy) (ep : Ep) (opened : List (Ep × NewIo)) :
    Alike w (v.watch f ep opened w.now []) := by
  cases hl : w.live with
  | some l =>
    obtain ⟨c, hc⟩ := Option.isSome_iff_exists.mp (ht l hl)
    have hn : w.now = some c := by simp [World.now, hl, hc]
    have hfl : f.live = some l := by rw [h.live, hl]
    simp only [Parties.watch, hfl, hn, List.map_nil, List.nil_append]
    refine ⟨?_, hl.symm, h.cli, h.up, h.acc, h.started, h.sent, h.down⟩
    show setAt f.conns l c = _
    rw [h.conns, setAt_self hc]
  | none =>
    have hn : w.now = none := by simp [World.now, hl]
    have hfl : f.live = none := by rw [h.live, hl]
    simp only [Parties.watch, hfl, hn, List.map_nil, List.nil_append]
    exact ⟨h.conns, hl.symm, h.cli, h.up, h.acc, h.started, h.sent, h.down⟩

theorem tick_keeps (v : Srv S) (stops : Bool) (c : Conn) (t : Nat) (io : SendIo) :
    ∃ c', (v.lifeStep stops (some c) (.tick t io)).1 = some c' ∧ ∀ w : World, w.clockOf c' = w.clockOf c := by
  simp only [Srv.lifeStep]
  split
  · unfold Srv.sendBlock
    split
    · exact ⟨_, rfl, fun _ => rfl⟩
    · rename_i s hs
      refine ⟨_, rfl, fun w => ?_⟩
      simp only [World.clockOf, hs]
      unfold serverSendTick
      simp only
      repeat' split
      all_goals rfl
  · exact ⟨_, rfl, fun _ => rfl⟩

theorem Alike.trans {a b c : World} (h1 : Alike a b) (h2 : Alike b c) : Alike a c :=
  ⟨h2.conns.trans h1.conns, h2.live.trans h1.live, h2.cli.trans h1.cli, h2.up.trans h1.up, h2.acc.trans h1.acc, h2.started.trans h1.started,
    h2.sent.trans h1.sent, fun p => (h1.down p).trans (h2.down p)⟩

theorem ticks_keep (v : Srv S) (stops : Bool) (n : Nat) (c : Conn) (t : Nat) (io : SendIo) :
    ∃ c', (v.lifeRun stops (some c) (List.replicate n (.tick t io))).1 = some c' := by
  induction n generalizing c with
  | zero => exact ⟨c, rfl⟩
  | succ n ih =>
    obtain ⟨c1, h1, -⟩ := tick_keeps v stops c t io
    simp only [List.replicate, Srv.lifeRun, h1]
    exact ih c1

/-- Two observations in sequence. -/
theorem watch_watch (v : Parties S) {f : World} {l : Ep} (hl : f.live = some l) {c1 c2 : Conn} (hc : f.clockOf c1 = f.clock l) (ep : Ep)
    (opened : List (Ep × NewIo)) (o1 o2 : List Bytes) :
    Alike (v.watch (v.watch f ep opened (some c1) o1) ep opened (some c2) o2) (v.watch f ep opened (some c2) (o1 ++ o2)) := by
  have hk : World.clock { f with conns := setAt f.conns l c1, down := o1.map (⟨l, ·, f.clock l⟩) ++ f.down } l = f.clock l := by
    unfold World.clock
    simp only [setAt_same]
    exact hc
  have e1 : v.watch f ep opened (some c1) o1 = { f with conns := setAt f.conns l c1, down := o1.map (⟨l, ·, f.clock l⟩) ++ f.down } := by
    simp only [Parties.watch, hl]
  rw [e1]
  generalize hg : ({ f with conns := setAt f.conns l c1, down := o1.map (⟨l, ·, f.clock l⟩) ++ f.down } : World) = g at hk ⊢
  have hgl : g.live = some l := by rw [← hg]; exact hl
  simp only [Parties.watch, hgl, hl, hk]
  subst hg
  refine ⟨?_, rfl, rfl, rfl, rfl, rfl, rfl, ?_⟩
  · funext x
    show setAt f.conns l c2 x = setAt (setAt f.conns l c1) l c2 x
    unfold setAt
    split <;> rfl
  · intro p
    simp only [List.mem_append, List.map_append]
    constructor
    · rintro (h | h | h)
      · exact .inl (.inr h)
      · exact .inl (.inl h)
      · exact .inr h
    · rintro ((h | h) | h)
      · exact .inr (.inl h)
      · exact .inl h
      · exact .inr (.inr h)

/-- A sequence of turns. -/
theorem watch_ticks {v : Parties S} {late : Option Nat} (n : Nat) (t : Nat) (io : SendIo) (ep : Ep) (opened : List (Ep × NewIo)) {w f : World} (hr : Reach v late w) (h : Alike w f)
    (ht : w.Tidy) :
    ∃ w', Reach v late w' ∧ w'.Tidy ∧ w'.now = (v.srv.lifeRun v.stops w.now (List.replicate n (.tick t io))).1 ∧
      Alike w' (v.watch f ep opened (v.srv.lifeRun v.stops w.now (List.replicate n (.tick t io))).1
        (v.srv.lifeRun v.stops w.now (List.replicate n (.tick t io))).2) := by
  induction n generalizing w f with
  | zero => exact ⟨w, hr, ht, rfl, watch_none h ht ep opened⟩
  | succ n ih =>
    obtain ⟨a1, a2, a3⟩ := watch_one (v := v) h ht ep opened (.tick t io) (by intro _ c hc; cases hc)
    obtain ⟨w', b1, b2, b3, b4⟩ := ih (.step w (.server ep (.tick t io)) hr trivial) a1 a2
    simp only [List.replicate, Srv.lifeRun]
    rw [a3] at b3 b4
    refine ⟨w', b1, b2, b3, b4.trans ?_⟩
    cases hl : w.live with
    | some l =>
      obtain ⟨c, hc⟩ := Option.isSome_iff_exists.mp (ht l hl)
      have hn : w.now = some c := by simp [World.now, hl, hc]
      rw [hn]
      obtain ⟨c1, h1, h2⟩ := tick_keeps v.srv v.stops c t io
      rw [h1]
      obtain ⟨c2, h3⟩ := ticks_keep v.srv v.stops n c1 t io
      rw [h3]
      refine watch_watch v (by rw [h.live, hl]) ?_ ep opened _ _
      rw [h2]
      simp only [World.clock, h.conns, hc]
    | none =>
      have hn : w.now = none := by simp [World.now, hl]
      have hfl : f.live = none := by rw [h.live, hl]
      have h0 : ∀ k, v.srv.lifeRun v.stops none (List.replicate k (.tick t io)) = (none, []) := by
        intro k
        induction k with
        | zero => rfl
        | succ k ih => simp only [List.replicate, Srv.lifeRun, Srv.lifeStep, ih, List.append_nil]
      rw [hn]
      simp only [Srv.lifeStep, h0, List.append_nil]
      simp only [Parties.watch, hfl, List.map_nil, List.nil_append]
      exact .refl _

/-- Our invariant: the record is one of the machine of EndWorld.lean, whose connection is that of the server's table. -/
structure Follows (v : Parties S) (late : Option Nat) (now : Option Conn) (f : World) : Prop where
  sim : ∃ w, Reach v late w ∧ w.Tidy ∧ w.now = now ∧ Alike w f

theorem Follows.init (v : Parties S) (late : Option Nat) (t : Nat) : Follows v late none (v.init t) :=
  ⟨_, .init t, (by intro l hl; cases hl), rfl, .refl _⟩

theorem Follows.client {v : Parties S} {late : Option Nat} {now : Option Conn} {f : World} (h : Follows v late now f) (i : CliIn)
    (ha : Allowed v late f (.client i)) : Follows v late now (v.step f (.client i)) := by
  obtain ⟨w, h1, h2, h3, h4⟩ := h.sim
  exact ⟨_, .step w _ h1 (h4.allowed _ ha), h2, h3, h4.client i⟩

/-- An event which is for our client one event of its connection. -/
theorem Follows.one {v : Parties S} {late : Option Nat} {now : Option Conn} {f : World} (h : Follows v late now f) (ep : Ep)
    (opened : List (Ep × NewIo)) (x : LifeEv) (ha : Allowed v late f (.server ep x)) (ho : ∀ t dg io, x = .start t dg io → opened = [(ep, io)]) :
    Follows v late (v.srv.lifeRun v.stops now [x]).1 (v.watch f ep opened (v.srv.lifeRun v.stops now [x]).1 (v.srv.lifeRun v.stops now [x]).2) := by
  obtain ⟨w, h1, h2, h3, h4⟩ := h.sim
  obtain ⟨a1, a2, a3⟩ := watch_one (v := v) h4 h2 ep opened x (by
    intro _ c hc
    cases x with
    | start t dg io => exact ho t dg io rfl
    | _ => cases hc)
  rw [h3] at a1 a3
  simp only [Srv.lifeRun, List.append_nil]
  exact ⟨_, .step w _ h1 (h4.allowed _ ha), a2, a3, a1⟩

theorem Follows.zero {v : Parties S} {late : Option Nat} {now : Option Conn} {f : World} (h : Follows v late now f) (ep : Ep)
    (opened : List (Ep × NewIo)) : Follows v late (v.srv.lifeRun v.stops now []).1 (v.watch f ep opened (v.srv.lifeRun v.stops now []).1 (v.srv.lifeRun v.stops now []).2) := by
  obtain ⟨w, h1, h2, h3, h4⟩ := h.sim
  refine ⟨w, h1, h2, h3, ?_⟩
  simp only [Srv.lifeRun]
  rw [← h3]
  exact watch_none h4 h2 ep opened

theorem follows_single {v : Parties S} (hv : v.stops = false) {late : Option Nat} {a : Addr} {f : Whole SrvSt} (hr : ReachSingle v late a f) :
    f.srv.addrs.Nodup ∧ Follows v late (f.srv.conn a) f.world := by
  induction hr with
  | init t => exact ⟨List.nodup_nil, .init v late t⟩
  | step f e _ ha ih =>
    obtain ⟨hs, hf⟩ := ih
    cases e with
    | client i => exact ⟨hs, hf.client i ha⟩
    | server ep e =>
      refine ⟨addrs_step v.srv f.srv hs e, ?_⟩
      obtain ⟨es, h1, h2⟩ := c50_single_thread_step v.srv f.srv hs e a
      simp only [Parties.single]
      rw [← hv] at h2
      have r1 : (v.srv.lifeRun v.stops (f.srv.conn a) es).1 = (v.srv.step f.srv e).1.conn a := by rw [h2]
      have r2 : (v.srv.lifeRun v.stops (f.srv.conn a) es).2 = sentTo a (v.srv.step f.srv e).2 := by rw [h2]
      rw [← r1, ← r2]
      cases h1 with
      | purge t io => exact hf.one ep _ _ trivial (fun _ _ _ h => nomatch h)
      | round t io n =>
        obtain ⟨w, h1, h2, h3, h4⟩ := hf.sim
        have := watch_ticks n t (io a) ep (SrvEv.opened a ep (.round t io)) h1 h4 h2
        rw [h3] at this
        exact ⟨this⟩
      | own t dg io => exact hf.one ep _ _ (ha rfl) (fun _ _ _ h => nomatch h)
      | other t b dg io hb => exact hf.zero ep _
      | main t dg io => exact hf.one ep _ _ (ha rfl) (fun _ _ _ h => by cases h; simp [SrvEv.opened])
      | ignored t b dg io => exact hf.zero ep _

theorem follows_multi {v : Parties S} (hv : v.stops = true) {late : Option Nat} {a : Addr} {f : Whole MSt} (hr : ReachMulti v late a f) :
    f.srv.Ok ∧ Follows v late (f.srv.conn a) f.world := by
  induction hr with
  | init t => exact ⟨⟨List.nodup_nil, fun x hx => by cases hx⟩, .init v late t⟩
  | step f e _ ha ih =>
    obtain ⟨hs, hf⟩ := ih
    cases e with
    | client i => exact ⟨hs, hf.client i ha⟩
    | server ep e =>
      refine ⟨mstep_ok v.srv f.srv e hs, ?_⟩
      obtain ⟨es, h1, h2⟩ := c50_multi_thread_step v.srv f.srv hs e a
      simp only [Parties.multi]
      rw [← hv] at h2
      have r1 : (v.srv.lifeRun v.stops (f.srv.conn a) es).1 = (v.srv.mstep f.srv e).1.conn a := by rw [h2]
      have r2 : (v.srv.lifeRun v.stops (f.srv.conn a) es).2 = sentTo a (v.srv.mstep f.srv e).2 := by rw [h2]
      rw [← r1, ← r2]
      cases h1 with
      | main t dg io => exact hf.one ep _ _ (ha rfl) (fun _ _ _ h => by cases h; simp [MEv.opened])
      | ignored t b dg io => exact hf.zero ep _
      | idle => exact hf.zero ep _
      | broken => exact hf.zero ep _
      | thread e pc =>
        cases e with
        | check t io =>
          simp only [ThreadEv.life]
          split
          · exact hf.one ep _ _ trivial (fun _ _ _ h => nomatch h)
          · exact hf.zero ep _
        | send t io =>
          simp only [ThreadEv.life]
          split
          · exact hf.one ep _ _ trivial (fun _ _ _ h => nomatch h)
          · exact hf.zero ep _
        | dgram t dg io =>
          simp only [ThreadEv.life]
          split
          · exact hf.one ep _ _ (ha rfl) (fun _ _ _ h => nomatch h)
          · exact hf.zero ep _
        | idle => exact hf.zero ep _
        | broken =>
          simp only [ThreadEv.life]
          split
          · exact hf.one ep _ _ trivial (fun _ _ _ h => nomatch h)
          · exact hf.zero ep _
        | exit => exact hf.zero ep _
      | other b e hb => exact hf.zero ep _

/-- The record is faithful: it is what the server has in its table for our client. -/
theorem Follows.table {v : Parties S} {late : Option Nat} {now : Option Conn} {f : World} (h : Follows v late now f) :
    now = f.live.bind f.conns := by
  obtain ⟨w, -, -, h3, h4⟩ := h.sim
  rw [← h3, h4.live, h4.conns]
  rfl

theorem Follows.upload {v : Parties S} {late : Option Nat} {now : Option Conn} {f : World} (hf : Follows v late now f) (h : Honest v late) {n file}
    (hj : v.job.task = .upload n file) :
    (∀ e c, f.conns e = some c → ∃ s, c.side = .writer s ∧ s.w.out <+: file ∧
      (s.finished = true → s.w.out = file ∧ (s.failed = false → s.total = file.length))) ∧
    (∀ k auth x, f.cli = .done (.ok (k, auth)) x → k = file.length ∧
      ∃ e c s, f.conns e = some c ∧ c.side = .writer s ∧ s.w.out = file) := by
  obtain ⟨w, h1, -, -, h4⟩ := hf.sim
  rw [h4.conns, h4.cli]
  exact c52_upload h hj h1

theorem Follows.download {v : Parties S} {late : Option Nat} {now : Option Conn} {f : World} (hf : Follows v late now f) (h : Honest v late) {ok}
    (hj : v.job.task = .download ok) :
    (stored f.cli = [] ∨ ∃ e file, Served v f e file ∧ stored f.cli <+: file) ∧
    (∀ k auth x, f.cli = .done (.ok (k, auth)) x → ∃ e, Served v f e x ∧ k = x.length) ∧
    (∀ e c, f.conns e = some c → ∃ s, c.side = .reader s ∧
      (s.finished = true → ∃ k auth x, f.cli = .done (.ok (k, auth)) x ∧ Served v f e x ∧ s.total = x.length)) := by
  obtain ⟨w, h1, -, -, h4⟩ := hf.sim
  unfold Served
  rw [h4.conns, h4.cli, h4.started]
  exact c53_download h hj h1

/-- **C52** with the whole single threaded server: whatever other clients do, and whatever arrives from other addresses, an upload behaves as in
`c52_upload`; and the connection in the server's table is the recorded one. -/
theorem c52_upload_single_thread {v : Parties S} (hv : v.stops = false) {late} (h : Honest v late) {n file} (hj : v.job.task = .upload n file)
    {a f} (hr : ReachSingle v late a f) :
    f.srv.conn a = f.world.live.bind f.world.conns ∧
    (∀ e c, f.world.conns e = some c → ∃ s, c.side = .writer s ∧ s.w.out <+: file ∧
      (s.finished = true → s.w.out = file ∧ (s.failed = false → s.total = file.length))) ∧
    (∀ k auth x, f.world.cli = .done (.ok (k, auth)) x → k = file.length ∧
      ∃ e c s, f.world.conns e = some c ∧ c.side = .writer s ∧ s.w.out = file) :=
  have hf := (follows_single hv hr).2
  ⟨hf.table, hf.upload h hj⟩

/-- **C52** with the whole multi threaded server. -/
theorem c52_upload_multi_thread {v : Parties S} (hv : v.stops = true) {late} (h : Honest v late) {n file} (hj : v.job.task = .upload n file)
    {a f} (hr : ReachMulti v late a f) :
    f.srv.conn a = f.world.live.bind f.world.conns ∧
    (∀ e c, f.world.conns e = some c → ∃ s, c.side = .writer s ∧ s.w.out <+: file ∧
      (s.finished = true → s.w.out = file ∧ (s.failed = false → s.total = file.length))) ∧
    (∀ k auth x, f.world.cli = .done (.ok (k, auth)) x → k = file.length ∧
      ∃ e c s, f.world.conns e = some c ∧ c.side = .writer s ∧ s.w.out = file) :=
  have hf := (follows_multi hv hr).2
  ⟨hf.table, hf.upload h hj⟩

/-- **C53** with the whole single threaded server. -/
theorem c53_download_single_thread {v : Parties S} (hv : v.stops = false) {late} (h : Honest v late) {ok} (hj : v.job.task = .download ok)
    {a f} (hr : ReachSingle v late a f) :
    f.srv.conn a = f.world.live.bind f.world.conns ∧
    (stored f.world.cli = [] ∨ ∃ e file, Served v f.world e file ∧ stored f.world.cli <+: file) ∧
    (∀ k auth x, f.world.cli = .done (.ok (k, auth)) x → ∃ e, Served v f.world e x ∧ k = x.length) ∧
    (∀ e c, f.world.conns e = some c → ∃ s, c.side = .reader s ∧
      (s.finished = true → ∃ k auth x, f.world.cli = .done (.ok (k, auth)) x ∧ Served v f.world e x ∧ s.total = x.length)) :=
  have hf := (follows_single hv hr).2
  ⟨hf.table, hf.download h hj⟩

/-- **C53** with the whole multi threaded server. -/
theorem c53_download_multi_thread {v : Parties S} (hv : v.stops = true) {late} (h : Honest v late) {ok} (hj : v.job.task = .download ok)
    {a f} (hr : ReachMulti v late a f) :
    f.srv.conn a = f.world.live.bind f.world.conns ∧
    (stored f.world.cli = [] ∨ ∃ e file, Served v f.world e file ∧ stored f.world.cli <+: file) ∧
    (∀ k auth x, f.world.cli = .done (.ok (k, auth)) x → ∃ e, Served v f.world e x ∧ k = x.length) ∧
    (∀ e c, f.world.conns e = some c → ∃ s, c.side = .reader s ∧
      (s.finished = true → ∃ k auth x, f.world.cli = .done (.ok (k, auth)) x ∧ Served v f.world e x ∧ s.total = x.length)) :=
  have hf := (follows_multi hv hr).2
  ⟨hf.table, hf.download h hj⟩

end Tftp

import Verif.ServerTable
/-
C50: every client sees its own server. The life of one connection as a small state machine of its own, and the proof that the single
threaded server with all its clients treats each address exactly like that machine. Multi.lean does the same for the multi threaded
server; EndToEnd*.lean composes the machine with the client.
-/
namespace Tftp

/-- What can happen to the connection of one address. -/
inductive LifeEv
  /-- a datagram of the address reaches the main socket and is looked at -/
  | start (t : Nat) (dg : Bytes) (io : NewIo)
  /-- a sending turn -/
  | tick (t : Nat) (io : SendIo)
  /-- a datagram of the address reaches the connection -/
  | recv (t : Nat) (dg : Bytes) (io : RecvIo)
  /-- the time-out check -/
  | check (t : Nat) (io : RecvIo)
  /-- the connection's socket fails (multi threaded server only) -/
  | drop

/-- A connection whose thread (in the multi threaded server) takes no more datagrams: src/server/multi_thread.rs:257-260, 300-303.
(A reader which fails in its sending turn still takes one.) -/
def Conn.deaf (c : Conn) : Bool := match c.side with
  | .reader s => s.finished
  | .writer s => s.failed || s.finished

/-- The connection of one address and what is sent to it; `stops`: the server is multi threaded, and deaf connections take no more
datagrams. -/
def Srv.lifeStep {S} (v : Srv S) (stops : Bool) : Option Conn → LifeEv → Option Conn × List Bytes
  | none, .start t dg io => match (v.newConn t dg io).result with
    | .ok (c, out) => (some c, out)
    | .error _ => (none, (v.newConn t dg io).replies)
  | some c, .tick t io => if c.active then (some (v.sendBlock c t io).1, (v.sendBlock c t io).2.1.toList) else (some c, [])
  | some c, .recv t dg io =>
    if stops && c.deaf then (some c, []) else (some (v.handle c t dg io).1, (v.handle c t dg io).2.toList)
  | some c, .check t io => (if (v.timeout c t io).1 then none else some c, (v.timeout c t io).2.toList)
  | some _, .drop => (none, [])
  | x, _ => (x, [])

/-- A sequence of them. -/
def Srv.lifeRun {S} (v : Srv S) (stops : Bool) : Option Conn → List LifeEv → Option Conn × List Bytes
  | x, [] => (x, [])
  | x, e :: es =>
    let (y, out) := v.lifeStep stops x e
    let (z, out') := v.lifeRun stops y es
    (z, out ++ out')

theorem lifeRun_append {S} (v : Srv S) (stops : Bool) (x : Option Conn) (es fs : List LifeEv) :
    v.lifeRun stops x (es ++ fs) = ((v.lifeRun stops (v.lifeRun stops x es).1 fs).1,
      (v.lifeRun stops x es).2 ++ (v.lifeRun stops (v.lifeRun stops x es).1 fs).2) := by
  induction es generalizing x with
  | nil => simp [Srv.lifeRun]
  | cons e r ih => simp only [List.cons_append, Srv.lifeRun]; rw [ih]; simp

/-- What an event of the server with all its clients means for the address `a`. -/
inductive Spec.Own (a : Addr) : SrvEv → List LifeEv → Prop
  | purge (t) (io : Addr → RecvIo) : Spec.Own a (.purge t io) [.check t (io a)]
  | round (t) (io : Addr → SendIo) (n : Nat) : Spec.Own a (.round t io) (List.replicate n (.tick t (io a)))
  | own (t dg io) : Spec.Own a (.client t a dg io) [.recv t dg io]
  | other (t b dg io) : b ≠ a → Spec.Own a (.client t b dg io) []
  | main (t dg io) : Spec.Own a (.main t a dg io) [.start t dg io]
  | ignored (t b dg io) : Spec.Own a (.main t b dg io) []

/-- The datagrams among `out` sent to `a`. -/
def sentTo (a : Addr) (out : List (Addr × Bytes)) : List Bytes := (out.filter fun x => x.1 == a).map (·.2)

theorem sentTo_append (a : Addr) (x y : List (Addr × Bytes)) : sentTo a (x ++ y) = sentTo a x ++ sentTo a y := by
  simp [sentTo]

theorem sentTo_self (a : Addr) (l : List Bytes) : sentTo a (l.map (a, ·)) = l := by
  induction l with
  | nil => rfl
  | cons x r ih =>
    simp only [sentTo, List.map_cons, List.filter_cons, beq_self_eq_true, if_true] at *
    rw [ih]

theorem sentTo_other {a b : Addr} (h : b ≠ a) (l : List Bytes) : sentTo a (l.map (b, ·)) = [] := by
  induction l with
  | nil => rfl
  | cons x r ih =>
    have : (b == a) = false := by simpa using h
    simp only [sentTo, List.map_cons, List.filter_cons, this] at *
    simpa using ih

theorem sentTo_nil {a : Addr} {out : List (Addr × Bytes)} (h : ∀ x ∈ out, x.1 ≠ a) : sentTo a out = [] := by
  unfold sentTo
  rw [List.filter_eq_nil_iff.mpr, List.map_nil]
  intro x hx
  simpa using h x hx

/-- The connection of an address in a table. -/
def lookup (a : Addr) (l : List (Addr × Conn)) : Option Conn := (l.find? fun x => x.1 == a).map (·.2)

theorem lookup_cons_self (a : Addr) (c : Conn) (l : List (Addr × Conn)) : lookup a ((a, c) :: l) = some c := by simp [lookup]
theorem lookup_cons_other {a b : Addr} (h : b ≠ a) (c : Conn) (l : List (Addr × Conn)) :
    lookup a ((b, c) :: l) = lookup a l := by
  have : (b == a) = false := by simpa using h
  simp [lookup, this]
theorem lookup_none {a : Addr} {l : List (Addr × Conn)} (h : ∀ x ∈ l, x.1 ≠ a) : lookup a l = none := by
  simp only [lookup, Option.map_eq_none_iff, List.find?_eq_none]
  intro x hx
  simpa using h x hx

theorem pass_out {S} (v : Srv S) (t : Nat) (io : Addr → SendIo) (lo : Nat) (hi : Option Nat) (i : Nat)
    (l : List (Addr × Conn)) : ∀ x ∈ (v.pass t io lo hi i l).2.2, ∃ y ∈ l, y.1 = x.1 := by
  induction l generalizing i with
  | nil => intro x hx; cases hx
  | cons z r ih =>
    obtain ⟨a, c⟩ := z
    intro x hx
    unfold Srv.pass at hx
    have step : x ∈ (v.sendBlock c t (io a)).2.1.toList.map (a, ·) → ∃ y ∈ (a, c) :: r, y.1 = x.1 := by
      intro h
      obtain ⟨d, -, rfl⟩ := List.mem_map.mp h
      exact ⟨(a, c), by simp, rfl⟩
    have tl : ∀ k, x ∈ (v.pass t io lo hi k r).2.2 → ∃ y ∈ (a, c) :: r, y.1 = x.1 := by
      intro k h
      obtain ⟨y, h1, h2⟩ := ih k x h
      exact ⟨y, by simp [h1], h2⟩
    split at hx
    · split at hx
      · simp only at hx
        split at hx
        · exact step hx
        · rcases List.mem_append.mp hx with h | h
          · exact step h
          · exact tl _ h
      · exact tl _ hx
    · exact tl _ hx

theorem pass_own {S} (v : Srv S) (st : Bool) (t : Nat) (io : Addr → SendIo) (lo : Nat) (hi : Option Nat) (i : Nat)
    (l : List (Addr × Conn)) (hl : (l.map (·.1)).Nodup) (b : Addr) :
    ∃ n, v.lifeRun st (lookup b l) (List.replicate n (.tick t (io b))) =
      (lookup b (v.pass t io lo hi i l).1, sentTo b (v.pass t io lo hi i l).2.2) := by
  induction l generalizing i with
  | nil => exact ⟨0, rfl⟩
  | cons z r ih =>
    obtain ⟨a, c⟩ := z
    simp only [List.map_cons, List.nodup_cons, List.mem_map, not_exists, not_and] at hl
    by_cases hab : a = b
    · subst hab
      have hr : ∀ k, sentTo a (v.pass t io lo hi k r).2.2 = [] := by
        intro k
        apply sentTo_nil
        intro x hx
        obtain ⟨y, h1, h2⟩ := pass_out v t io lo hi k r x hx
        rw [← h2]
        exact hl.1 y h1
      rw [lookup_cons_self]
      unfold Srv.pass
      split
      · rename_i hact
        split
        · simp only
          split
          · refine ⟨1, ?_⟩
            simp only [List.replicate, Srv.lifeRun, Srv.lifeStep, hact, if_true, List.append_nil, lookup_cons_self, sentTo_self]
          · refine ⟨1, ?_⟩
            simp only [List.replicate, Srv.lifeRun, Srv.lifeStep, hact, if_true, List.append_nil, lookup_cons_self,
              sentTo_append, sentTo_self, hr]
        · exact ⟨0, by simp only [List.replicate, Srv.lifeRun, lookup_cons_self, hr]⟩
      · exact ⟨0, by simp only [List.replicate, Srv.lifeRun, lookup_cons_self, hr]⟩
    · rw [lookup_cons_other hab]
      unfold Srv.pass
      split
      · split
        · simp only
          split
          · exact ⟨0, by simp only [List.replicate, Srv.lifeRun, lookup_cons_other hab, sentTo_other hab]⟩
          · simp only [lookup_cons_other hab, sentTo_append, sentTo_other hab, List.nil_append]
            exact ih _ hl.2
        · simp only [lookup_cons_other hab]
          exact ih _ hl.2
      · simp only [lookup_cons_other hab]
        exact ih _ hl.2

theorem sendRound_own {S} (v : Srv S) (st : Bool) (s : SrvSt) (hs : s.addrs.Nodup) (t : Nat) (io : Addr → SendIo) (b : Addr) :
    ∃ n, v.lifeRun st (s.conn b) (List.replicate n (.tick t (io b))) =
      ((v.sendRound s t io).1.conn b, sentTo b (v.sendRound s t io).2.2) := by
  obtain ⟨n, hn⟩ := pass_own v st t io s.next none 0 s.clients hs b
  have ha := pass_addrs v t io s.next none 0 s.clients
  have e : s.conn b = lookup b s.clients := rfl
  unfold Srv.sendRound
  split
  · rename_i hp
    rw [hp] at hn
    exact ⟨n, by rw [e, hn]; rfl⟩
  · rename_i cl out hp
    rw [hp] at hn ha
    obtain ⟨m, hm⟩ := pass_own v st t io 0 (some s.next) 0 cl (by rw [ha]; exact hs) b
    refine ⟨n + m, ?_⟩
    rw [← List.replicate_append_replicate, lifeRun_append, e, hn]
    simp only
    rw [hm]
    split
    · rename_i hq; rw [hq]; simp only [sentTo_append]; rfl
    · rename_i hq; rw [hq]; simp only [sentTo_append]; rfl

theorem sentTo_flatMap (a : Addr) (l : List (Addr × Conn)) (f : Conn → Addr → List Bytes) (hl : (l.map (·.1)).Nodup) :
    sentTo a (l.flatMap fun x => (f x.2 x.1).map (x.1, ·)) = ((lookup a l).map fun c => f c a).getD [] := by
  induction l with
  | nil => rfl
  | cons z r ih =>
    obtain ⟨b, c⟩ := z
    simp only [List.map_cons, List.nodup_cons, List.mem_map, not_exists, not_and] at hl
    rw [List.flatMap_cons, sentTo_append]
    by_cases h : b = a
    · subst h
      rw [lookup_cons_self, sentTo_self, sentTo_nil]
      · simp
      · intro x hx
        obtain ⟨y, h1, h2⟩ := List.mem_flatMap.mp hx
        obtain ⟨d, -, rfl⟩ := List.mem_map.mp h2
        exact hl.1 y h1
    · rw [lookup_cons_other h, sentTo_other h, ih hl.2, List.nil_append]

theorem lookup_filter (a : Addr) (l : List (Addr × Conn)) (p : Addr → Conn → Bool) (hl : (l.map (·.1)).Nodup) :
    lookup a (l.filter fun x => p x.1 x.2) = (lookup a l).filter (p a) := by
  induction l with
  | nil => rfl
  | cons z r ih =>
    obtain ⟨b, c⟩ := z
    simp only [List.map_cons, List.nodup_cons, List.mem_map, not_exists, not_and] at hl
    rw [List.filter_cons]
    by_cases h : b = a
    · subst h
      rw [lookup_cons_self]
      cases hp : p b c
      · simp only [Bool.false_eq_true, if_false, Option.filter, hp]
        apply lookup_none
        intro x hx
        exact hl.1 x (List.mem_filter.mp hx).1
      · simp only [if_true, lookup_cons_self, Option.filter, hp]
    · rw [lookup_cons_other h]
      split
      · rw [lookup_cons_other h]; exact ih hl.2
      · exact ih hl.2

theorem lookup_map (a b : Addr) (l : List (Addr × Conn)) (f : Conn → Conn) :
    lookup a (l.map fun x => if x.1 = b then (b, f x.2) else x) = (lookup a l).map fun c => if b = a then f c else c := by
  induction l with
  | nil => rfl
  | cons z r ih =>
    obtain ⟨d, c⟩ := z
    rw [List.map_cons]
    by_cases h : d = a
    · subst h
      rw [lookup_cons_self]
      by_cases hb : d = b
      · subst hb; simp [lookup_cons_self]
      · rw [if_neg hb, lookup_cons_self]
        rw [Option.map_some, if_neg (fun e : b = d => hb e.symm)]
    · rw [lookup_cons_other h, ← ih]
      by_cases hb : d = b
      · subst hb; rw [if_pos rfl, lookup_cons_other h]
      · rw [if_neg hb, lookup_cons_other h]

theorem lookup_insert (a b : Addr) (c : Conn) (l : List (Addr × Conn)) (h : lookup b l = none) :
    lookup a (insertClient b c l) = if b = a then some c else lookup a l := by
  induction l with
  | nil =>
    unfold insertClient
    split
    · subst_vars; exact lookup_cons_self _ _ _
    · rename_i h; exact lookup_cons_other h _ _
  | cons z r ih =>
    obtain ⟨d, c'⟩ := z
    have hd : d ≠ b := by
      intro e; subst e; rw [lookup_cons_self] at h; cases h
    rw [lookup_cons_other hd] at h
    unfold insertClient
    split
    · split
      · subst_vars; exact lookup_cons_self _ _ _
      · rename_i h; exact lookup_cons_other h _ _
    · by_cases hda : d = a
      · subst hda
        rw [lookup_cons_self, lookup_cons_self, if_neg (fun e => hd e.symm)]
      · rw [lookup_cons_other hda, lookup_cons_other hda, ih h]

/-- **C50** (single threaded server): one event of the server, whatever other clients there are and whatever they do, is for an
address `a` one of `a`'s own events: the connection of `a` and the datagrams sent to `a` are those of a server which has only this
connection. -/
theorem c50_single_thread_step {S} (v : Srv S) (s : SrvSt) (hs : s.addrs.Nodup) (e : SrvEv) (a : Addr) :
    ∃ es, Spec.Own a e es ∧ v.lifeRun false (s.conn a) es = ((v.step s e).1.conn a, sentTo a (v.step s e).2) := by
  have ec : ∀ x : SrvSt, x.conn a = lookup a x.clients := fun _ => rfl
  cases e with
  | purge t io =>
    refine ⟨_, .purge t io, ?_⟩
    simp only [Srv.step, ec]
    rw [lookup_filter a s.clients (fun a c => !(v.timeout c t (io a)).1) hs,
      sentTo_flatMap a s.clients (fun c a => (v.timeout c t (io a)).2.toList) hs]
    cases lookup a s.clients with
    | none => rfl
    | some c =>
      simp only [Srv.lifeRun, Srv.lifeStep, List.append_nil, Option.map_some, Option.getD_some, Option.filter]
      by_cases h : (v.timeout c t (io a)).1 = true <;> simp [h]
  | round t io =>
    obtain ⟨n, hn⟩ := sendRound_own v false s hs t io a
    exact ⟨_, .round t io n, hn⟩
  | client t b dg io =>
    have h1 : sentTo a (v.step s (.client t b dg io)).2 =
        ((lookup a s.clients).map fun c => if b = a then (v.handle c t dg io).2.toList else []).getD [] := by
      simp only [Srv.step]
      rw [← sentTo_flatMap a s.clients (fun c d => if b = d then (v.handle c t dg io).2.toList else []) hs]
      congr 2
      funext x
      by_cases h : x.1 = b
      · rw [if_pos h, if_pos h.symm, h]
      · rw [if_neg h, if_neg (fun e => h e.symm)]; rfl
    have h2 : (v.step s (.client t b dg io)).1.conn a =
        (lookup a s.clients).map fun c => if b = a then (v.handle c t dg io).1 else c :=
      lookup_map a b s.clients fun c => (v.handle c t dg io).1
    rw [h1, h2, ec]
    by_cases h : b = a
    · subst h
      refine ⟨_, .own t dg io, ?_⟩
      cases lookup b s.clients with
      | none => rfl
      | some c => simp [Srv.lifeRun, Srv.lifeStep]
    · refine ⟨_, .other t b dg io h, ?_⟩
      cases lookup a s.clients with
      | none => rfl
      | some c => simp [Srv.lifeRun, h]
  | main t b dg io =>
    by_cases hb : s.clients.any (fun x => x.1 == b) = true
    · exact ⟨_, .ignored t b dg io, by simp only [Srv.step, hb, if_true]; rfl⟩
    · by_cases hm : s.clients.length ≥ v.maxConn
      · exact ⟨_, .ignored t b dg io, by simp only [Srv.step, hb, hm, if_true]; rfl⟩
      · have hn : lookup b s.clients = none := by
          apply lookup_none
          intro x hx he
          apply hb
          simp only [List.any_eq_true, beq_iff_eq]
          exact ⟨x, hx, he⟩
        by_cases h : b = a
        · subst h
          refine ⟨_, .main t dg io, ?_⟩
          rw [ec, hn]
          simp only [Srv.lifeRun, Srv.lifeStep, Srv.step, hb, Bool.false_eq_true, if_false, hm, List.append_nil]
          have hrep : ∀ y, (v.newConn t dg io).result = .ok y → (v.newConn t dg io).replies = [] := by
            intro y hy
            simp only [Srv.newConn] at hy ⊢
            repeat' split at hy
            all_goals first | cases hy | skip
            all_goals simp_all
          cases hr : (v.newConn t dg io).result with
          | error x => simp only [ec, hn, sentTo_self]
          | ok y =>
            obtain ⟨c, out⟩ := y
            simp only [ec]
            rw [lookup_insert b b c _ hn, if_pos rfl, sentTo_self, hrep _ hr, List.nil_append]
        · refine ⟨_, .ignored t b dg io, ?_⟩
          simp only [Srv.lifeRun, Srv.step, hb, Bool.false_eq_true, if_false, hm]
          cases hr : (v.newConn t dg io).result with
          | error x => simp only [sentTo_other h]
          | ok y =>
            obtain ⟨c, out⟩ := y
            simp only [ec]
            rw [lookup_insert a b c _ hn, if_neg h, sentTo_other h]

/-- Everything the server sends during some events. -/
def Srv.sent {S} (v : Srv S) (s : SrvSt) : List SrvEv → List (Addr × Bytes)
  | [] => []
  | e :: es => (v.step s e).2 ++ v.sent (v.step s e).1 es

/-- What a history of the server means for the address `a`: each event contributes own events of `a`, in order. -/
inductive Spec.OwnAll (a : Addr) : List SrvEv → List LifeEv → Prop
  | nil : Spec.OwnAll a [] []
  | cons {e es l ls} : Spec.Own a e l → Spec.OwnAll a es ls → Spec.OwnAll a (e :: es) (l ++ ls)

theorem addrs_step {S} (v : Srv S) (s : SrvSt) (hs : s.addrs.Nodup) (e : SrvEv) : (v.step s e).1.addrs.Nodup := by
  rcases step_addrs v s e with h1 | ⟨a, h1, h2, h3⟩
  · exact h1.nodup hs
  · exact h3.nodup_iff.mpr (List.nodup_cons.mpr ⟨h1, hs⟩)

/-- **C50** (single threaded server): in every history of the server with any number of clients, an address `a` gets exactly what it
would get from a server of its own which sees only `a`'s datagrams, turns and time-outs: the same connection and the same datagrams in
the same order. -/
theorem c50_single_thread {S} (v : Srv S) (evs : List SrvEv) (a : Addr) :
    ∃ es, Spec.OwnAll a evs es ∧
      v.lifeRun false none es = ((v.run ⟨[], 0⟩ evs).conn a, sentTo a (v.sent ⟨[], 0⟩ evs)) := by
  have key : ∀ s : SrvSt, s.addrs.Nodup → ∃ es, Spec.OwnAll a evs es ∧
      v.lifeRun false (s.conn a) es = ((v.run s evs).conn a, sentTo a (v.sent s evs)) := by
    induction evs with
    | nil => exact fun s _ => ⟨[], .nil, rfl⟩
    | cons e r ih =>
      intro s hs
      obtain ⟨l, h1, h2⟩ := c50_single_thread_step v s hs e a
      obtain ⟨ls, h3, h4⟩ := ih _ (addrs_step v s hs e)
      refine ⟨l ++ ls, .cons h1 h3, ?_⟩
      rw [lifeRun_append, h2]
      simp only
      rw [h4]
      simp only [Srv.sent, sentTo_append]
      rfl
  exact key ⟨[], 0⟩ List.nodup_nil

end Tftp

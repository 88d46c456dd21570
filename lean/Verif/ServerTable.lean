import Verif.Server
/-
C22: the connection table of the server.
-/
namespace Tftp

/-- Addresses of the table. -/
def SrvSt.addrs (s : SrvSt) : List Addr := s.clients.map (·.1)

/-- Specification: the connection of an address. -/
def SrvSt.conn (s : SrvSt) (a : Addr) : Option Conn := (s.clients.find? fun x => x.1 == a).map (·.2)

theorem conn_iff {s : SrvSt} (h : s.addrs.Nodup) {a : Addr} {c : Conn} : s.conn a = some c ↔ (a, c) ∈ s.clients := by
  unfold SrvSt.conn
  unfold SrvSt.addrs at h
  generalize s.clients = l at h
  induction l with
  | nil => simp
  | cons x r ih =>
    simp only [List.map_cons, List.nodup_cons, List.mem_map, not_exists, not_and] at h
    rw [List.find?_cons]
    by_cases hx : x.1 = a
    · have hx' : (x.1 == a) = true := by simpa using hx
      rw [hx']
      simp only [Option.map_some, Option.some.injEq, List.mem_cons]
      constructor
      · rintro rfl; left; rw [← hx]
      · rintro (h1 | h1)
        · rw [← h1]
        · exact absurd hx.symm (h.1 _ h1)
    · have hx' : (x.1 == a) = false := by simpa using hx
      rw [hx', ih h.2]
      simp only [List.mem_cons]
      constructor
      · exact .inr
      · rintro (h1 | h1)
        · exact absurd (by rw [← h1]) hx
        · exact h1

theorem conn_none_iff {s : SrvSt} {a : Addr} : s.conn a = none ↔ a ∉ s.addrs := by
  simp only [SrvSt.conn, SrvSt.addrs, Option.map_eq_none_iff, List.find?_eq_none, beq_iff_eq, List.mem_map, not_exists,
    not_and]

theorem pass_addrs {S} (v : Srv S) (t : Nat) (io : Addr → SendIo) (lo : Nat) (hi : Option Nat) (i : Nat)
    (l : List (Addr × Conn)) : (v.pass t io lo hi i l).1.map (·.1) = l.map (·.1) := by
  induction l generalizing i with
  | nil => rfl
  | cons x r ih =>
    obtain ⟨a, c⟩ := x
    unfold Srv.pass
    split
    · split
      · simp only
        split
        · simp
        · simp [ih]
      · simp [ih]
    · simp [ih]

theorem sendRound_addrs {S} (v : Srv S) (s : SrvSt) (t : Nat) (io : Addr → SendIo) :
    (v.sendRound s t io).1.addrs = s.addrs := by
  have h1 := pass_addrs v t io s.next none 0 s.clients
  unfold Srv.sendRound
  split
  · rename_i h; rw [h] at h1; exact h1
  · rename_i h
    rw [h] at h1
    have h2 := pass_addrs v t io 0 (some s.next) 0 (v.pass t io s.next none 0 s.clients).1
    rw [h] at h2
    split
    · rename_i g; rw [g] at h2; exact h2.trans h1
    · rename_i g; rw [g] at h2; exact h2.trans h1

theorem insertClient_perm (a : Addr) (c : Conn) (l : List (Addr × Conn)) : (insertClient a c l).Perm ((a, c) :: l) := by
  induction l with
  | nil => exact .refl _
  | cons x r ih =>
    unfold insertClient
    split
    · exact .refl _
    · exact ((List.Perm.cons x ih).trans (List.Perm.swap _ _ _))

theorem step_addrs {S} (v : Srv S) (s : SrvSt) (e : SrvEv) :
    (v.step s e).1.addrs.Sublist s.addrs ∨
    ∃ a, a ∉ s.addrs ∧ s.addrs.length < v.maxConn ∧ (v.step s e).1.addrs.Perm (a :: s.addrs) := by
  cases e with
  | purge t io => exact .inl (List.filter_sublist.map _)
  | round t io => left; rw [show (v.step s (.round t io)).1 = (v.sendRound s t io).1 from rfl, sendRound_addrs]; exact .refl _
  | client t a dg io =>
    left
    have : (v.step s (.client t a dg io)).1.addrs = s.addrs := by
      simp only [Srv.step, SrvSt.addrs, List.map_map]
      apply List.map_congr_left
      intro x _
      simp only [Function.comp]
      split
      · rename_i h; exact h.symm
      · rfl
    rw [this]
    exact .refl _
  | main t a dg io =>
    simp only [Srv.step]
    split
    · exact .inl (.refl _)
    · rename_i h1
      split
      · exact .inl (.refl _)
      · rename_i h2
        split
        · exact .inl (.refl _)
        · right
          refine ⟨a, ?_, ?_, ?_⟩
          · simpa [SrvSt.addrs] using h1
          · simpa [SrvSt.addrs] using h2
          · exact (insertClient_perm a _ s.clients).map _

/-- **C22**: the server never holds more than `max_connections` transfers, and at most one per client address. -/
theorem c22_table_bound {S} (v : Srv S) (evs : List SrvEv) :
    (v.run ⟨[], 0⟩ evs).clients.length ≤ v.maxConn ∧ (v.run ⟨[], 0⟩ evs).addrs.Nodup := by
  have key : ∀ s : SrvSt, s.clients.length ≤ v.maxConn ∧ s.addrs.Nodup →
      (v.run s evs).clients.length ≤ v.maxConn ∧ (v.run s evs).addrs.Nodup := by
    induction evs with
    | nil => exact fun _ h => h
    | cons e r ih =>
      intro s h
      refine ih _ ?_
      have hl : ∀ x : SrvSt, x.clients.length = x.addrs.length := fun x => by simp [SrvSt.addrs]
      rw [hl] at h ⊢
      rcases step_addrs v s e with h1 | ⟨a, h1, h2, h3⟩
      · exact ⟨Nat.le_trans h1.length_le h.1, h1.nodup h.2⟩
      · exact ⟨by rw [h3.length_eq]; exact h2, h3.nodup_iff.mpr (List.nodup_cons.mpr ⟨h1, h.2⟩)⟩
  exact key _ ⟨Nat.zero_le _, List.nodup_nil⟩

/-! ### Isolation -/

/-- The sending turns of a connection in a round. -/
inductive Spec.Turns {S} (v : Srv S) (t : Nat) (io : SendIo) (c : Conn) : Conn → Prop
  | none : Spec.Turns v t io c c
  | turn (c' : Conn) : Spec.Turns v t io c c' → Spec.Turns v t io c (v.sendBlock c' t io).1

theorem Spec.Turns.trans {S} {v : Srv S} {t : Nat} {io : SendIo} {a b c : Conn} (h1 : Spec.Turns v t io a b)
    (h2 : Spec.Turns v t io b c) : Spec.Turns v t io a c := by
  induction h2 with
  | none => exact h1
  | turn c' _ ih => exact .turn c' ih

theorem pass_turns {S} (v : Srv S) (t : Nat) (io : Addr → SendIo) (lo : Nat) (hi : Option Nat) (i : Nat)
    (l : List (Addr × Conn)) :
    (∀ b c', (b, c') ∈ (v.pass t io lo hi i l).1 → ∃ c, (b, c) ∈ l ∧ Spec.Turns v t (io b) c c') ∧
    (∀ b c, (b, c) ∈ l → ∃ c', (b, c') ∈ (v.pass t io lo hi i l).1 ∧ Spec.Turns v t (io b) c c') := by
  induction l generalizing i with
  | nil => constructor <;> (intro b c h; cases h)
  | cons x r ih =>
    obtain ⟨a, c⟩ := x
    have cons : ∀ (c1 : Conn) (r1 : List (Addr × Conn)), Spec.Turns v t (io a) c c1 →
        ((∀ b c', (b, c') ∈ r1 → ∃ c, (b, c) ∈ r ∧ Spec.Turns v t (io b) c c') ∧
         (∀ b c, (b, c) ∈ r → ∃ c', (b, c') ∈ r1 ∧ Spec.Turns v t (io b) c c')) →
        (∀ b c', (b, c') ∈ (a, c1) :: r1 → ∃ c0, (b, c0) ∈ (a, c) :: r ∧ Spec.Turns v t (io b) c0 c') ∧
         (∀ b c0, (b, c0) ∈ (a, c) :: r → ∃ c', (b, c') ∈ (a, c1) :: r1 ∧ Spec.Turns v t (io b) c0 c') := by
      intro c1 r1 h1 h2
      constructor
      · intro b c' hm
        rcases List.mem_cons.mp hm with hm | hm
        · cases hm; exact ⟨c, by simp, h1⟩
        · obtain ⟨c0, h3, h4⟩ := h2.1 b c' hm; exact ⟨c0, by simp [h3], h4⟩
      · intro b c0 hm
        rcases List.mem_cons.mp hm with hm | hm
        · cases hm; exact ⟨c1, by simp, h1⟩
        · obtain ⟨c', h3, h4⟩ := h2.2 b c0 hm; exact ⟨c', by simp [h3], h4⟩
    have self : (∀ b c', (b, c') ∈ r → ∃ c, (b, c) ∈ r ∧ Spec.Turns v t (io b) c c') ∧
         (∀ b c, (b, c) ∈ r → ∃ c', (b, c') ∈ r ∧ Spec.Turns v t (io b) c c') :=
      ⟨fun b c h => ⟨c, h, .none⟩, fun b c h => ⟨c, h, .none⟩⟩
    unfold Srv.pass
    split
    · split
      · simp only
        split
        · exact cons _ _ (.turn c .none) self
        · exact cons _ _ (.turn c .none) (ih _)
      · exact cons _ _ .none (ih _)
    · exact cons _ _ .none (ih _)

theorem sendRound_turns {S} (v : Srv S) (s : SrvSt) (t : Nat) (io : Addr → SendIo) (b : Addr) (c : Conn)
    (h : (b, c) ∈ s.clients) : ∃ c', (b, c') ∈ (v.sendRound s t io).1.clients ∧ Spec.Turns v t (io b) c c' := by
  obtain ⟨c1, h1, h2⟩ := (pass_turns v t io s.next none 0 s.clients).2 b c h
  unfold Srv.sendRound
  split
  · rename_i hp; rw [hp] at h1; exact ⟨c1, h1, h2⟩
  · rename_i hp
    rw [hp] at h1
    obtain ⟨c2, h3, h4⟩ := (pass_turns v t io 0 (some s.next) 0 _).2 b c1 h1
    split
    · rename_i hq; rw [hq] at h3; exact ⟨c2, h3, h2.trans h4⟩
    · rename_i hq; rw [hq] at h3; exact ⟨c2, h3, h2.trans h4⟩

/-- What one event may do to the connection of address `b`: the only datagrams it sees are those from `b` on `b`'s own
socket; apart from them it only has its own sending turns and its own time-out. -/
def Spec.Affects {S} (v : Srv S) (b : Addr) (c : Conn) : SrvEv → Option Conn → Prop
  | .purge t io, y => y = if (v.timeout c t (io b)).1 then none else some c
  | .round t io, y => ∃ c', y = some c' ∧ Spec.Turns v t (io b) c c'
  | .client t a dg io, y => y = some (if a = b then (v.handle c t dg io).1 else c)
  | .main _ _ _ _, y => y = some c

/-- **C22**, isolation: whatever happens, the connection of an address changes only through its own datagrams, turns and
time-outs; in particular a datagram of another address, and any datagram to the main socket, leaves it as it is. -/
theorem c22_isolation {S} (v : Srv S) (s : SrvSt) (hs : s.addrs.Nodup) (e : SrvEv) (b : Addr) (c : Conn)
    (hc : s.conn b = some c) : Spec.Affects v b c e ((v.step s e).1.conn b) := by
  have hm := (conn_iff hs).mp hc
  have hs' : (v.step s e).1.addrs.Nodup := by
    rcases step_addrs v s e with h1 | ⟨a, h1, h2, h3⟩
    · exact h1.nodup hs
    · exact h3.nodup_iff.mpr (List.nodup_cons.mpr ⟨h1, hs⟩)
  cases e with
  | purge t io =>
    simp only [Spec.Affects]
    split
    · rename_i h
      rw [conn_none_iff]
      simp only [Srv.step, SrvSt.addrs, List.mem_map, List.mem_filter, not_exists, not_and]
      rintro ⟨b', c'⟩ ⟨h1, h2⟩ h3
      simp only at h3
      subst h3
      have := (conn_iff hs).mpr h1
      rw [hc] at this
      cases this
      rw [h] at h2
      cases h2
    · rename_i h
      rw [conn_iff hs']
      simp only [Srv.step, List.mem_filter]
      exact ⟨hm, by simpa using h⟩
  | round t io =>
    obtain ⟨c', h1, h2⟩ := sendRound_turns v s t io b c hm
    exact ⟨c', (conn_iff hs').mpr h1, h2⟩
  | client t a dg io =>
    simp only [Spec.Affects]
    rw [conn_iff hs']
    simp only [Srv.step, List.mem_map]
    refine ⟨(b, c), hm, ?_⟩
    simp only
    by_cases h : b = a
    · subst h; simp
    · rw [if_neg h, if_neg (fun e => h e.symm)]
  | main t a dg io =>
    simp only [Spec.Affects]
    rw [conn_iff hs']
    simp only [Srv.step]
    split
    · exact hm
    · split
      · exact hm
      · split
        · exact hm
        · exact (insertClient_perm a _ s.clients).mem_iff.mpr (by simp [hm])

/-- **C22**, isolation: a datagram is answered only to the address it came from. -/
theorem c22_answers {S} (v : Srv S) (s : SrvSt) (a : Addr) :
    (∀ t dg io, ∀ x ∈ (v.step s (.client t a dg io)).2, x.1 = a) ∧
    (∀ t dg io, ∀ x ∈ (v.step s (.main t a dg io)).2, x.1 = a) := by
  constructor
  · intro t dg io x hx
    simp only [Srv.step, List.mem_flatMap] at hx
    obtain ⟨y, -, hy⟩ := hx
    split at hy
    · obtain ⟨z, -, rfl⟩ := List.mem_map.mp hy; rfl
    · cases hy
  · intro t dg io x hx
    simp only [Srv.step] at hx
    split at hx
    · cases hx
    · split at hx
      · cases hx
      · split at hx
        · obtain ⟨z, -, rfl⟩ := List.mem_map.mp hx; rfl
        · obtain ⟨z, -, rfl⟩ := List.mem_map.mp hx; rfl

/-- **C22**: a request while the table is full, or from an address which already has a connection, is ignored. -/
theorem c22_full_ignored {S} (v : Srv S) (s : SrvSt) (t : Nat) (a : Addr) (dg : Bytes) (io : NewIo)
    (h : v.maxConn ≤ s.clients.length ∨ a ∈ s.addrs) : v.step s (.main t a dg io) = (s, []) := by
  simp only [Srv.step]
  split
  · rfl
  · rename_i h1
    rcases h with h | h
    · rw [if_pos h]
    · exact absurd (by simpa [SrvSt.addrs] using h) h1

end Tftp

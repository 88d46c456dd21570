import Verif.ServerTimers
/-
C40: the single threaded server serves its clients in turn.
-/
namespace Tftp

/-- Specification: the addresses of the clients which are sent a file, in table order. -/
def SrvSt.active (s : SrvSt) : List Addr := (s.clients.filter (·.2.active)).map (·.1)

/-- Specification: the client at address `a` has something to send at time `t`, and its file and socket (`io`) work. -/
def Spec.Wants {S} (v : Srv S) (s : SrvSt) (t : Nat) (io : Addr → SendIo) (a : Addr) : Prop :=
  ∃ c, s.conn a = some c ∧ c.active = true ∧ (v.sendBlock c t (io a)).2.2 = true

/-- Specification: who is sent a block in a step. -/
def Spec.sender {S} (v : Srv S) (s : SrvSt) : SrvEv → Option Addr
  | .round t io => (v.sendRound s t io).2.1
  | _ => none

/-- The active entries of a table. -/
def actives (l : List (Addr × Conn)) : List (Addr × Conn) := l.filter (·.2.active)

theorem actives_cons_t {a : Addr} {c : Conn} {l : List (Addr × Conn)} (h : c.active = true) :
    actives ((a, c) :: l) = (a, c) :: actives l := by simp [actives, h]

theorem actives_cons_f {a : Addr} {c : Conn} {l : List (Addr × Conn)} (h : c.active = false) :
    actives ((a, c) :: l) = actives l := by simp [actives, h]

theorem pass_sublist {S} (v : Srv S) (t : Nat) (io : Addr → SendIo) (lo : Nat) (hi : Option Nat) (i : Nat)
    (l : List (Addr × Conn)) :
    ((actives (v.pass t io lo hi i l).1).map (·.1)).Sublist ((actives l).map (·.1)) := by
  induction l generalizing i with
  | nil => exact .refl _
  | cons x r ih =>
    obtain ⟨a, c⟩ := x
    have go : ∀ (c' : Conn) (l' : List (Addr × Conn)), c.active = true →
        ((actives l').map (·.1)).Sublist ((actives r).map (·.1)) →
        ((actives ((a, c') :: l')).map (·.1)).Sublist ((actives ((a, c) :: r)).map (·.1)) := by
      intro c' l' hc h
      rw [actives_cons_t hc]
      cases hc' : c'.active
      · rw [actives_cons_f hc']; exact h.trans (List.sublist_cons_self _ _)
      · rw [actives_cons_t hc']; exact h.cons_cons _
    unfold Srv.pass
    split
    · rename_i hc
      split
      · simp only
        split
        · exact go _ _ hc (.refl _)
        · exact go _ _ hc (ih _)
      · exact go _ _ hc (ih _)
    · rename_i hc
      have hc : c.active = false := by simpa using hc
      simp only
      rw [actives_cons_f hc, actives_cons_f hc]
      exact ih _

theorem pass_some {S} (v : Srv S) (t : Nat) (io : Addr → SendIo) (lo : Nat) (hi : Option Nat) (i : Nat)
    (l cl : List (Addr × Conn)) (j : Nat) (z : Addr) (out : List (Addr × Bytes))
    (h : v.pass t io lo hi i l = (cl, some (j, z), out)) :
    ∃ A c B, actives l = A ++ (z, c) :: B ∧ j = i + A.length + 1 ∧ lo ≤ i + A.length ∧ (∀ h, hi = some h → i + A.length < h) ∧
      (v.sendBlock c t (io z)).2.2 = true ∧
      ∀ k x, A[k]? = some x → lo ≤ i + k → (v.sendBlock x.2 t (io x.1)).2.2 = false := by
  induction l generalizing i cl out with
  | nil => simp [Srv.pass] at h
  | cons x r ih =>
    obtain ⟨a, c⟩ := x
    unfold Srv.pass at h
    split at h
    · rename_i hc
      rw [actives_cons_t hc]
      split at h
      · rename_i hw
        simp only at h
        split at h
        · rename_i hs
          simp only [Prod.mk.injEq, Option.some.injEq] at h
          obtain ⟨_, ⟨rfl, rfl⟩, _⟩ := h
          refine ⟨[], c, actives r, rfl, rfl, hw.1, ?_, hs, ?_⟩
          · intro h' e; subst e; simpa using hw.2
          · intro k x hk; simp at hk
        · rename_i hs
          simp only [Prod.mk.injEq] at h
          obtain ⟨A, c1, B, e1, e2, e3, e4, e5, e6⟩ := ih (i + 1) _ _ (by rw [← h.2.1])
          refine ⟨(a, c) :: A, c1, B, by rw [e1]; rfl, by simp only [List.length_cons]; omega,
            by simp only [List.length_cons]; omega, ?_, e5, ?_⟩
          · intro h' e; have := e4 h' e; simp only [List.length_cons]; omega
          · intro k x hk hlo
            cases k with
            | zero => simp only [List.getElem?_cons_zero, Option.some.injEq] at hk; subst hk; simpa using hs
            | succ k => exact e6 k x (by simpa using hk) (by omega)
      · rename_i hw
        simp only [Prod.mk.injEq] at h
        obtain ⟨A, c1, B, e1, e2, e3, e4, e5, e6⟩ := ih (i + 1) _ _ (by rw [← h.2.1])
        have hlo' : ¬ lo ≤ i := by
          intro hlo
          apply hw
          refine ⟨hlo, ?_⟩
          cases hi with
          | none => rfl
          | some h' => have := e4 h' rfl; simp; omega
        refine ⟨(a, c) :: A, c1, B, by rw [e1]; rfl, by simp only [List.length_cons]; omega,
            by simp only [List.length_cons]; omega, ?_, e5, ?_⟩
        · intro h' e; have := e4 h' e; simp only [List.length_cons]; omega
        · intro k x hk hlo
          cases k with
          | zero => omega
          | succ k => exact e6 k x (by simpa using hk) (by omega)
    · rename_i hc
      have hc : c.active = false := by simpa using hc
      rw [actives_cons_f hc]
      simp only [Prod.mk.injEq] at h
      exact ih i _ _ (by rw [← h.2.1])

theorem pass_none {S} (v : Srv S) (t : Nat) (io : Addr → SendIo) (lo : Nat) (hi : Option Nat) (i : Nat)
    (l cl : List (Addr × Conn)) (out : List (Addr × Bytes)) (h : v.pass t io lo hi i l = (cl, none, out)) :
    (∀ k x, (actives l)[k]? = some x → lo ≤ i + k → (∀ h, hi = some h → i + k < h) → (v.sendBlock x.2 t (io x.1)).2.2 = false) ∧
    ((actives cl).map (·.1) = (actives l).map (·.1) → ∀ k, i + k < lo → (actives cl)[k]? = (actives l)[k]?) := by
  induction l generalizing i cl out with
  | nil =>
    simp only [Srv.pass, Prod.mk.injEq] at h
    rw [← h.1]
    simp [actives]
  | cons x r ih =>
    obtain ⟨a, c⟩ := x
    unfold Srv.pass at h
    split at h
    · rename_i hc
      rw [actives_cons_t hc]
      split at h
      · rename_i hw
        simp only at h
        split at h
        · cases h
        · rename_i hs
          simp only [Prod.mk.injEq] at h
          obtain ⟨e1, e2⟩ := ih (i + 1) _ _ (by rw [← h.2.1])
          refine ⟨?_, ?_⟩
          · intro k x hk hlo hhi
            cases k with
            | zero => simp only [List.getElem?_cons_zero, Option.some.injEq] at hk; subst hk; simpa using hs
            | succ k => exact e1 k x (by simpa using hk) (by omega) (fun h' e => by have := hhi h' e; omega)
          · intro _ k hk; omega
      · rename_i hw
        simp only [Prod.mk.injEq] at h
        obtain ⟨e1, e2⟩ := ih (i + 1) _ _ (by rw [← h.2.1])
        refine ⟨?_, ?_⟩
        · intro k x hk hlo hhi
          cases k with
          | zero =>
            exact absurd ⟨hlo, by cases hi with | none => rfl | some h' => have := hhi h' rfl; simpa using this⟩ hw
          | succ k => exact e1 k x (by simpa using hk) (by omega) (fun h' e => by have := hhi h' e; omega)
        · rw [← h.1, actives_cons_t hc]
          intro heq k hk
          cases k with
          | zero => rfl
          | succ k =>
            simp only [List.getElem?_cons_succ]
            refine e2 ?_ k (by omega)
            simpa using heq
    · rename_i hc
      have hc : c.active = false := by simpa using hc
      rw [actives_cons_f hc]
      simp only [Prod.mk.injEq] at h
      rw [← h.1, actives_cons_f hc]
      exact ih i _ _ (by rw [← h.2.1])

/-- The order in which clients are offered turns. -/
def turnOrder (L : List Addr) (n : Nat) : List Addr := L.drop n ++ L.take n

/-- A round with unchanged active clients moves those offered a turn behind the others, the sender last. -/
theorem round_order {S} (v : Srv S) (s : SrvSt) (hnd : s.addrs.Nodup) (t : Nat) (io : Addr → SendIo) (z : Addr)
    (hz : (v.sendRound s t io).2.1 = some z) (hst : (v.sendRound s t io).1.active = s.active) :
    ∃ A B, turnOrder s.active s.next = A ++ z :: B ∧ (∀ a ∈ A, ¬ Spec.Wants v s t io a) ∧ Spec.Wants v s t io z ∧
      turnOrder s.active (v.sendRound s t io).1.next = B ++ A ++ [z] ∧
      (v.sendRound s t io).1.next ≤ s.active.length := by
  have wants : ∀ x, x ∈ actives s.clients → (Spec.Wants v s t io x.1 ↔ (v.sendBlock x.2 t (io x.1)).2.2 = true) := by
    intro x hx
    have hx := List.mem_filter.mp hx
    have hc : s.conn x.1 = some x.2 := (conn_iff hnd).mpr hx.1
    constructor
    · rintro ⟨c, h1, _, h3⟩; rw [hc] at h1; cases h1; exact h3
    · intro h; exact ⟨x.2, hc, hx.2, h⟩
  have hact : s.active = (actives s.clients).map (·.1) := rfl
  unfold Srv.sendRound at hz hst ⊢
  split at hz
  · rename_i cl j a out hp
    simp only [Option.some.injEq] at hz
    subst hz
    obtain ⟨A, c, B, e1, e2, e3, _, e5, e6⟩ := pass_some v t io _ _ _ _ _ _ _ _ hp
    rw [hact, e1]
    simp only [Nat.zero_add] at e2 e3 e6
    refine ⟨(A.map (·.1)).drop s.next, (B.map (·.1)) ++ (A.map (·.1)).take s.next, ?_, ?_, ?_, ?_, ?_⟩
    · simp only [turnOrder, List.map_append, List.map_cons, List.drop_append, List.take_append, List.length_map]
      rw [show s.next - A.length = 0 from by omega]
      simp
    · intro x hx
      rw [← List.map_drop] at hx
      obtain ⟨y, hy, rfl⟩ := List.mem_map.mp hx
      obtain ⟨k, hk⟩ := List.getElem?_of_mem hy
      rw [List.getElem?_drop] at hk
      rw [wants y (by rw [e1]; exact List.mem_append_left _ (List.mem_of_mem_drop hy)), e6 _ y hk (by omega)]
      simp
    · rw [wants (a, c) (by rw [e1]; simp)]; exact e5
    · simp only [turnOrder, List.map_append, List.map_cons, e2]
      have h1 : A.map (·.1) ++ a :: B.map (·.1) = (A.map (·.1) ++ [a]) ++ B.map (·.1) := by simp
      have hl : A.length + 1 = (A.map (·.1) ++ [a]).length := by simp
      rw [h1, hl, List.drop_left, List.take_left, List.append_assoc, List.append_assoc, ← List.append_assoc (List.take _ _),
        List.take_append_drop]
    · simp only [List.map_append, List.map_cons, List.length_append, List.length_cons, List.length_map]; omega
  · rename_i cl out hp
    simp only [hp] at hz hst ⊢
    split at hz
    · rename_i cl' j a out' hp'
      simp only [Option.some.injEq] at hz
      subst hz
      simp only [hp'] at hst ⊢
      have s1 := pass_sublist v t io s.next none 0 s.clients
      have s2 := pass_sublist v t io 0 (some s.next) 0 cl
      rw [hp] at s1
      rw [hp'] at s2
      simp only at s1 s2
      have hst' : (actives cl').map (·.1) = (actives s.clients).map (·.1) := hst
      have hcl : (actives cl).map (·.1) = (actives s.clients).map (·.1) := by
        apply s1.eq_of_length_le
        rw [← hst']; exact s2.length_le
      obtain ⟨n1, n2⟩ := pass_none v t io _ _ _ _ _ _ hp
      have n2 := n2 hcl
      simp only [Nat.zero_add] at n1 n2
      obtain ⟨A, c, B, e1, e2, _, e4, e5, e6⟩ := pass_some v t io _ _ _ _ _ _ _ _ hp'
      have e4 := e4 _ rfl
      simp only [Nat.zero_add] at e2 e4 e6
      have hA : ∀ k, k < A.length + 1 → (actives s.clients)[k]? = (A ++ [(a, c)])[k]? := by
        intro k hk
        rw [← n2 k (by omega), e1, show A ++ (a, c) :: B = (A ++ [(a, c)]) ++ B from by simp, List.getElem?_append_left]
        simpa using hk
      have hlen : A.length + 1 ≤ (actives s.clients).length := by
        have := hA A.length (by omega)
        rw [List.getElem?_append_right (Nat.le_refl _)] at this
        simp only [Nat.sub_self, List.getElem?_cons_zero] at this
        obtain ⟨h, _⟩ := List.getElem?_eq_some_iff.mp this
        omega
      have hsplit : actives s.clients = (A ++ [(a, c)]) ++ (actives s.clients).drop (A.length + 1) := by
        conv => lhs; rw [← List.take_append_drop (A.length + 1) (actives s.clients)]
        congr 1
        apply List.ext_getElem?
        intro k
        by_cases hk : k < A.length + 1
        · rw [List.getElem?_take, if_pos hk, hA k hk]
        · rw [List.getElem?_eq_none (by rw [List.length_take]; omega), List.getElem?_eq_none (by simp; omega)]
      generalize hB : (actives s.clients).drop (A.length + 1) = B' at hsplit
      rw [hact, hsplit]
      obtain ⟨m, hm⟩ : ∃ m, s.next = A.length + 1 + m := ⟨s.next - (A.length + 1), by omega⟩
      refine ⟨(B'.map (·.1)).drop m ++ A.map (·.1), (B'.map (·.1)).take m, ?_, ?_, ?_, ?_, ?_⟩
      · simp only [turnOrder, List.map_append, List.map_cons, List.map_nil, List.drop_append, List.take_append, List.length_map,
          List.length_append, List.length_cons, List.length_nil, hm]
        rw [List.drop_eq_nil_of_le (by simp; omega), List.take_of_length_le (by simp; omega)]
        rw [show A.length + 1 + m - A.length = 1 + m from by omega, show A.length + 1 + m - (A.length + (0 + 1)) = m from by omega]
        rw [List.drop_eq_nil_of_le (by simp), List.take_of_length_le (by simp)]
        simp
      · intro x hx
        rcases List.mem_append.mp hx with hx | hx
        · rw [← List.map_drop] at hx
          obtain ⟨y, hy, rfl⟩ := List.mem_map.mp hx
          obtain ⟨k, hk⟩ := List.getElem?_of_mem hy
          rw [List.getElem?_drop, ← hB, List.getElem?_drop] at hk
          rw [wants y (List.mem_of_getElem? hk), n1 _ y hk (by omega) (by simp)]
          simp
        · obtain ⟨y, hy, rfl⟩ := List.mem_map.mp hx
          obtain ⟨k, hk⟩ := List.getElem?_of_mem hy
          rw [wants y (by rw [hsplit]; simp [hy]), e6 _ y hk (by omega)]
          simp
      · rw [wants (a, c) (by rw [hsplit]; simp)]; exact e5
      · simp only [turnOrder, List.map_append, List.map_cons, List.map_nil, e2]
        have hl : A.length + 1 = (A.map (·.1) ++ [a]).length := by simp
        rw [hl, List.drop_left, List.take_left, ← List.append_assoc, ← List.append_assoc, List.take_append_drop]
      · simp only [List.map_append, List.map_cons, List.length_append, List.length_cons, List.length_map]; omega
    · cases hz

/-- A round in which nobody sends leaves the pointer alone. -/
theorem round_none {S} (v : Srv S) (s : SrvSt) (t : Nat) (io : Addr → SendIo) (hz : (v.sendRound s t io).2.1 = none) :
    (v.sendRound s t io).1.next = s.next := by
  unfold Srv.sendRound at hz ⊢
  split at hz
  · cases hz
  · rename_i hp
    split at hz
    · cases hz
    · simp

theorem step_next {S} (v : Srv S) (s : SrvSt) (e : SrvEv) (h : Spec.sender v s e = none) : (v.step s e).1.next = s.next := by
  cases e with
  | purge t io => rfl
  | round t io => exact round_none v s t io h
  | client t a dg io => rfl
  | main t a dg io =>
    simp only [Srv.step]
    split
    · rfl
    · split
      · rfl
      · split <;> rfl

/-- `y` comes before `x`. -/
def Before (y x : Addr) (q : List Addr) : Prop := ∃ P R T, q = P ++ y :: (R ++ x :: T)

theorem before_round {y x z : Addr} {A B : List Addr} (hnd : (A ++ z :: B).Nodup) (h : Before y x (A ++ z :: B)) (hy : y ∉ A)
    (hyz : y ≠ z) : z ≠ x ∧ Before y x (B ++ A ++ [z]) := by
  have hyB : y ∈ B := by
    obtain ⟨P, R, T, e⟩ := h
    have : y ∈ A ++ z :: B := by rw [e]; simp
    simp only [List.mem_append, List.mem_cons] at this
    rcases this with h | h | h
    · exact absurd h hy
    · exact absurd h hyz
    · exact h
  obtain ⟨B1, B2, rfl⟩ := List.append_of_mem hyB
  obtain ⟨P, R, T, e⟩ := h
  have hnd' := hnd
  rw [e] at hnd'
  -- the position of `y` is unique
  have hP : P = A ++ z :: B1 ∧ R ++ x :: T = B2 := by
    have e' : (A ++ z :: B1) ++ y :: B2 = P ++ y :: (R ++ x :: T) := by rw [← e]; simp
    have n1 : y ∉ A ++ z :: B1 := by
      have : ((A ++ z :: B1) ++ y :: B2).Nodup := by simpa using hnd
      intro hm
      exact (List.nodup_append.mp this).2.2 y hm y (by simp) rfl
    have n2 : y ∉ P := by
      intro hm
      exact (List.nodup_append.mp hnd').2.2 y hm y (by simp) rfl
    rw [List.append_eq_append_iff] at e'
    rcases e' with ⟨C, e1, e2⟩ | ⟨C, e1, e2⟩
    · cases C with
      | nil => simp only [List.append_nil] at e1; simp only [List.nil_append, List.cons.injEq, true_and] at e2; exact ⟨e1, e2.symm⟩
      | cons c C => simp only [List.cons_append, List.cons.injEq] at e2; exact absurd (by rw [e1, ← e2.1]; simp) n2
    · cases C with
      | nil => simp only [List.append_nil] at e1; simp only [List.nil_append, List.cons.injEq, true_and] at e2; exact ⟨e1.symm, e2⟩
      | cons c C => simp only [List.cons_append, List.cons.injEq] at e2; exact absurd (by rw [e1, ← e2.1]; simp) n1
  obtain ⟨rfl, rfl⟩ := hP
  refine ⟨?_, B1, R, T ++ A ++ [z], by simp⟩
  rintro rfl
  have := (List.nodup_append.mp hnd').2.2 z (by simp) z (by simp)
  exact this rfl

theorem turnOrder_nodup {L : List Addr} (h : L.Nodup) (n : Nat) : (turnOrder L n).Nodup := by
  unfold turnOrder
  exact (List.perm_append_comm.trans (by rw [List.take_append_drop])).nodup_iff.mpr h

theorem active_nodup {s : SrvSt} (h : s.addrs.Nodup) : s.active.Nodup :=
  (List.Sublist.map (fun x : Addr × Conn => x.1) (List.filter_sublist (p := fun x : Addr × Conn => x.2.active))).nodup h

/-- **C40**: take two rounds `i < j` of any history of the server in which client `x` is sent a block. If meanwhile no client
joins, finishes or fails, every other client `y` which is being sent a file, and has something to send in each of the rounds
after `i` up to `j`, is sent a block in between. -/
theorem c40_round_robin_partial {S} (v : Srv S) (evs : List SrvEv) (i j : Nat) (x y : Addr) (hij : i < j)
    (ei ej : SrvEv) (hi : evs[i]? = some ei) (hj : evs[j]? = some ej)
    (hxi : Spec.sender v (v.run ⟨[], 0⟩ (evs.take i)) ei = some x)
    (hxj : Spec.sender v (v.run ⟨[], 0⟩ (evs.take j)) ej = some x)
    (hst : ∀ k, i ≤ k → k ≤ j + 1 → (v.run ⟨[], 0⟩ (evs.take k)).active = (v.run ⟨[], 0⟩ (evs.take i)).active)
    (hyx : y ≠ x) (hy : y ∈ (v.run ⟨[], 0⟩ (evs.take i)).active)
    (hwant : ∀ k t io, i < k → k ≤ j → evs[k]? = some (.round t io) → Spec.Wants v (v.run ⟨[], 0⟩ (evs.take k)) t io y) :
    ∃ k e, i < k ∧ k < j ∧ evs[k]? = some e ∧ Spec.sender v (v.run ⟨[], 0⟩ (evs.take k)) e = some y := by
  let st := fun k => v.run ⟨[], 0⟩ (evs.take k)
  let L := (st i).active
  have hstep : ∀ k e, evs[k]? = some e → st (k + 1) = (v.step (st k) e).1 := by
    intro k e he
    simp only [st]
    rw [List.take_succ_eq_append_getElem (List.getElem?_eq_some_iff.mp he).1, (List.getElem?_eq_some_iff.mp he).2, run_snoc]
  have hnd : ∀ k, (st k).addrs.Nodup := fun k => (c22_table_bound v (evs.take k)).2
  have hLnd : L.Nodup := active_nodup (hnd i)
  have hL : ∀ k, i ≤ k → k ≤ j + 1 → (st k).active = L := hst
  -- what a sending round does to the order
  have hround : ∀ k e z, i ≤ k → k ≤ j → evs[k]? = some e → Spec.sender v (st k) e = some z →
      ∃ t io A B, e = .round t io ∧ turnOrder L (st k).next = A ++ z :: B ∧ (∀ a ∈ A, ¬ Spec.Wants v (st k) t io a) ∧
        turnOrder L (st (k + 1)).next = B ++ A ++ [z] := by
    intro k e z h1 h2 he hz
    cases e with
    | round t io =>
      have hs := hstep k _ he
      have ha : (v.sendRound (st k) t io).1.active = (st k).active := by
        rw [hL k h1 (by omega), ← hL (k + 1) (by omega) (by omega), hs]; rfl
      obtain ⟨A, B, e1, e2, _, e4, _⟩ := round_order v (st k) (hnd k) t io z hz ha
      rw [hL k h1 (by omega)] at e1 e4
      exact ⟨t, io, A, B, rfl, e1, e2, by rw [hs]; exact e4⟩
    | purge t io => cases hz
    | client t a dg io => cases hz
    | main t a dg io => cases hz
  apply Classical.byContradiction
  intro hno
  have hno : ∀ k e, i < k → k < j → evs[k]? = some e → Spec.sender v (st k) e ≠ some y := fun k e h1 h2 h3 h4 =>
    hno ⟨k, e, h1, h2, h3, h4⟩
  -- after round `i`, `y` comes before `x`
  have h0 : Before y x (turnOrder L (st (i + 1)).next) := by
    obtain ⟨t, io, A, B, _, e1, _, e3⟩ := hround i ei x (Nat.le_refl _) (by omega) hi hxi
    have hyq : y ∈ turnOrder L (st i).next := by
      have : y ∈ L := hy
      simp only [turnOrder, List.mem_append]
      rw [← List.take_append_drop (st i).next L] at this
      exact (List.mem_append.mp this).symm
    rw [e1] at hyq
    have : y ∈ B ++ A := by
      simp only [List.mem_append, List.mem_cons] at hyq ⊢
      rcases hyq with h | h | h
      · exact .inr h
      · exact absurd h hyx
      · exact .inl h
    obtain ⟨P, R, e⟩ := List.append_of_mem this
    rw [e3, e]
    exact ⟨P, R, [], by simp⟩
  have hk : ∀ d, i + 1 + d ≤ j → Before y x (turnOrder L (st (i + 1 + d)).next) := by
    intro d
    induction d with
    | zero => exact fun _ => h0
    | succ d ih =>
      intro hd
      have ihd := ih (by omega)
      obtain ⟨e, he⟩ : ∃ e, evs[i + 1 + d]? = some e := by
        have : i + 1 + d < evs.length := by have := (List.getElem?_eq_some_iff.mp hj).1; omega
        exact ⟨_, List.getElem?_eq_getElem this⟩
      cases hz : Spec.sender v (st (i + 1 + d)) e with
      | none =>
        have : (st (i + 1 + (d + 1))).next = (st (i + 1 + d)).next := by
          rw [show i + 1 + (d + 1) = (i + 1 + d) + 1 from by omega, hstep _ _ he]; exact step_next v _ e hz
        rw [this]; exact ihd
      | some z =>
        obtain ⟨t, io, A, B, rfl, e1, e2, e3⟩ := hround _ e z (by omega) (by omega) he hz
        rw [show i + 1 + (d + 1) = (i + 1 + d) + 1 from by omega, e3]
        have hn := turnOrder_nodup hLnd (st (i + 1 + d)).next
        rw [e1] at hn ihd
        refine (before_round hn ihd ?_ ?_).2
        · intro hA; exact e2 y hA (hwant _ t io (by omega) (by omega) he)
        · rintro rfl; exact hno _ _ (by omega) (by omega) he hz
  have hjb := hk (j - (i + 1)) (by omega)
  rw [show i + 1 + (j - (i + 1)) = j from by omega] at hjb
  obtain ⟨t, io, A, B, rfl, e1, e2, _⟩ := hround j ej x (by omega) (Nat.le_refl _) hj hxj
  have hn := turnOrder_nodup hLnd (st j).next
  rw [e1] at hn hjb
  exact (before_round hn hjb (fun hA => e2 y hA (hwant _ t io hij (Nat.le_refl _) hj)) hyx).1 rfl

end Tftp

import Verif.Poll
/-
C67: the single threaded server with its sockets overlooks no datagram.
-/
namespace Tftp

theorem mem_enqueue {x y : Option Addr} {l : List (Option Addr)} : y ∈ enqueue x l ↔ y = x ∨ y ∈ l := by
  unfold enqueue
  split
  · constructor
    · exact .inr
    · rintro (rfl | h) <;> assumption
  · simp [or_comm]

theorem nodup_enqueue {x : Option Addr} {l : List (Option Addr)} (h : l.Nodup) : (enqueue x l).Nodup := by
  unfold enqueue
  split
  · exact h
  · rename_i hx
    rw [List.nodup_append]
    refine ⟨h, by simp, ?_⟩
    intro a ha b hb e
    simp only [List.mem_singleton] at hb
    exact hx (by rw [← hb, ← e]; exact ha)

/-- What holds between the sockets and the connection table `l`: every socket will be looked at, or is armed and, if something
waits, ready to be reported. -/
structure PollSt.Ok (P : PollSt) (l : List Addr) : Prop where
  dom : ∀ a, a ∈ l ↔ ∃ s, P.sock a = some s
  inj : ∀ a b s u, P.sock a = some s → P.sock b = some u → s.id = u.id → a = b
  pos : ∀ a s, P.sock a = some s → s.id ≠ 0
  bnd : ∀ a s, P.sock a = some s → s.id ≤ P.lastId
  cover : ∀ a s, P.sock a = some s → s.id ∈ P.notified ∨ (s.armed = true ∧ (s.queue ≠ [] → some a ∈ P.fifo))
  fifo : ∀ a, some a ∈ P.fifo → a ∈ l
  nodup : P.fifo.Nodup

theorem ok_new : PollSt.new.Ok [] where
  dom a := by simp [PollSt.new]
  inj a b s u h := by cases h
  pos a s h := by cases h
  bnd a s h := by cases h
  cover a s h := by cases h
  fifo a h := by cases h
  nodup := List.nodup_nil

theorem ok_arrive {P : PollSt} {l : List Addr} (h : P.Ok l) (x : Arrival) : (P.arrive x).Ok l := by
  cases x with
  | main a d =>
    refine ⟨h.dom, h.inj, h.pos, h.bnd, ?_, ?_, ?_⟩
    · intro b s hb
      rcases h.cover b s hb with h1 | ⟨h1, h2⟩
      · exact .inl h1
      · refine .inr ⟨h1, fun hq => ?_⟩
        simp only [PollSt.arrive]
        split
        · exact mem_enqueue.mpr (.inr (h2 hq))
        · exact h2 hq
    · intro b hb
      simp only [PollSt.arrive] at hb
      split at hb
      · rcases mem_enqueue.mp hb with hb | hb
        · cases hb
        · exact h.fifo b hb
      · exact h.fifo b hb
    · simp only [PollSt.arrive]
      split
      · exact nodup_enqueue h.nodup
      · exact h.nodup
  | client a x =>
    simp only [PollSt.arrive]
    split
    · exact h
    · rename_i s hs
      have hal : a ∈ l := (h.dom a).mpr ⟨s, hs⟩
      refine ⟨?_, ?_, ?_, ?_, ?_, ?_, ?_⟩
      · intro b
        rw [h.dom b]
        by_cases hb : b = a
        · subst hb; simp [hs]
        · simp [hb]
      · intro b c u w hb hc hid
        simp only at hb hc
        by_cases hba : b = a <;> by_cases hca : c = a
        · rw [hba, hca]
        · rw [if_pos hba] at hb; rw [if_neg hca] at hc; cases hb
          rw [hba]; exact h.inj a c s w hs hc hid
        · rw [if_neg hba] at hb; rw [if_pos hca] at hc; cases hc
          rw [hca]; exact h.inj b a u s hb hs hid
        · rw [if_neg hba] at hb; rw [if_neg hca] at hc
          exact h.inj b c u w hb hc hid
      · intro b u hb
        simp only at hb
        split at hb
        · cases hb; exact h.pos a s hs
        · exact h.pos b u hb
      · intro b u hb
        simp only at hb
        split at hb
        · cases hb; exact h.bnd a s hs
        · exact h.bnd b u hb
      · intro b u hb
        simp only at hb
        split at hb
        · rename_i hba
          subst hba
          cases hb
          rcases h.cover b s hs with h1 | ⟨h1, h2⟩
          · exact .inl h1
          · exact .inr ⟨h1, fun _ => by simp only [h1, if_true]; exact mem_enqueue.mpr (.inl rfl)⟩
        · rcases h.cover b u hb with h1 | ⟨h1, h2⟩
          · exact .inl h1
          · refine .inr ⟨h1, fun hq => ?_⟩
            simp only
            split
            · exact mem_enqueue.mpr (.inr (h2 hq))
            · exact h2 hq
      · intro b hb
        simp only at hb
        split at hb
        · rcases mem_enqueue.mp hb with hb | hb
          · cases hb; exact hal
          · exact h.fifo b hb
        · exact h.fifo b hb
      · simp only
        split
        · exact nodup_enqueue h.nodup
        · exact h.nodup

theorem ok_arrivals {P : PollSt} {l : List Addr} (h : P.Ok l) (xs : List Arrival) : (xs.foldl PollSt.arrive P).Ok l := by
  induction xs generalizing P with
  | nil => exact h
  | cons x xs ih => exact ih (ok_arrive h x)

theorem ok_rearmMain {P : PollSt} {l : List Addr} (h : P.Ok l) : P.rearmMain.Ok l := by
  refine ⟨h.dom, h.inj, h.pos, h.bnd, ?_, ?_, ?_⟩
  · intro b s hb
    rcases h.cover b s hb with h1 | ⟨h1, h2⟩
    · exact .inl (List.mem_filter.mpr ⟨h1, by simpa using h.pos b s hb⟩)
    · refine .inr ⟨h1, fun hq => ?_⟩
      simp only [PollSt.rearmMain]
      split
      · exact h2 hq
      · exact mem_enqueue.mpr (.inr (h2 hq))
  · intro b hb
    simp only [PollSt.rearmMain] at hb
    split at hb
    · exact h.fifo b hb
    · rcases mem_enqueue.mp hb with hb | hb
      · cases hb
      · exact h.fifo b hb
  · simp only [PollSt.rearmMain]
    split
    · exact h.nodup
    · exact nodup_enqueue h.nodup

theorem ok_wait {P : PollSt} {l : List Addr} (h : P.Ok l) (n : Nat) : (P.wait n).Ok l := by
  have get : ∀ a u, (P.wait n).sock a = some u → ∃ s, P.sock a = some s ∧ u.id = s.id ∧ u.queue = s.queue ∧
      (some a ∉ (P.fifo.filter P.waiting).take (n + 1) → u.armed = s.armed) := by
    intro a u hu
    simp only [PollSt.wait, Option.map_eq_some_iff] at hu
    obtain ⟨s, hs, rfl⟩ := hu
    refine ⟨s, hs, ?_, ?_, ?_⟩
    · split <;> rfl
    · split <;> rfl
    · intro hm; rw [if_neg hm]
  refine ⟨?_, ?_, ?_, ?_, ?_, ?_, ?_⟩
  · intro a
    rw [h.dom a]
    simp only [PollSt.wait, Option.map_eq_some_iff]
    constructor
    · rintro ⟨s, hs⟩; exact ⟨_, s, hs, rfl⟩
    · rintro ⟨_, s, hs, _⟩; exact ⟨s, hs⟩
  · intro a b s u ha hb hid
    obtain ⟨s', h1, h2, -⟩ := get a s ha
    obtain ⟨u', h3, h4, -⟩ := get b u hb
    exact h.inj a b s' u' h1 h3 (by rw [← h2, ← h4]; exact hid)
  · intro a s ha
    obtain ⟨s', h1, h2, -⟩ := get a s ha
    rw [h2]; exact h.pos a s' h1
  · intro a s ha
    obtain ⟨s', h1, h2, -⟩ := get a s ha
    rw [h2]; exact h.bnd a s' h1
  · intro a u ha
    obtain ⟨s, h1, h2, h3, h4⟩ := get a u ha
    by_cases hr : some a ∈ (P.fifo.filter P.waiting).take (n + 1)
    · refine .inl (List.mem_append.mpr (.inr (List.mem_filterMap.mpr ⟨some a, hr, ?_⟩)))
      simp [h1, h2]
    · rcases h.cover a s h1 with g1 | ⟨g1, g2⟩
      · exact .inl (List.mem_append.mpr (.inl (by rw [h2]; exact g1)))
      · refine .inr ⟨by rw [h4 hr]; exact g1, fun hq => ?_⟩
        rw [h3] at hq
        have hl : some a ∈ P.fifo.filter P.waiting := List.mem_filter.mpr ⟨g2 hq, by simp [PollSt.waiting, h1, hq]⟩
        rw [← List.take_append_drop (n + 1) (P.fifo.filter P.waiting)] at hl
        exact (List.mem_append.mp hl).resolve_left hr
  · intro a ha
    exact h.fifo a (List.mem_filter.mp (List.mem_of_mem_drop ha)).1
  · exact ((List.drop_sublist _ _).trans List.filter_sublist).nodup h.nodup

theorem ok_keep {P : PollSt} {l l' : List Addr} (h : P.Ok l) (hl : ∀ a ∈ l', a ∈ l) : (P.keep l').Ok l' := by
  have get : ∀ a u, (P.keep l').sock a = some u → a ∈ l' ∧ P.sock a = some u := by
    intro a u hu
    simp only [PollSt.keep] at hu
    split at hu
    · rename_i ha; exact ⟨ha, hu⟩
    · cases hu
  refine ⟨?_, ?_, ?_, ?_, ?_, ?_, ?_⟩
  · intro a
    constructor
    · intro ha
      obtain ⟨s, hs⟩ := (h.dom a).mp (hl a ha)
      exact ⟨s, by simp [PollSt.keep, ha, hs]⟩
    · rintro ⟨s, hs⟩; exact (get a s hs).1
  · intro a b s u ha hb
    exact h.inj a b s u (get a s ha).2 (get b u hb).2
  · intro a s ha; exact h.pos a s (get a s ha).2
  · intro a s ha; exact h.bnd a s (get a s ha).2
  · intro a s ha
    obtain ⟨h1, h2⟩ := get a s ha
    rcases h.cover a s h2 with g1 | ⟨g1, g2⟩
    · exact .inl g1
    · exact .inr ⟨g1, fun hq => List.mem_filter.mpr ⟨g2 hq, by simpa using h1⟩⟩
  · intro a ha
    have := (List.mem_filter.mp ha).2
    simpa using this
  · exact List.filter_sublist.nodup h.nodup

theorem ok_register {P : PollSt} {l l' : List Addr} (h : P.Ok l) (a : Addr) (ha : a ∉ l) (hl : ∀ b, b ∈ l' ↔ b = a ∨ b ∈ l)
    (hid : P.lastId + 1 < 2 ^ 32) : (P.register a).Ok l' ∧ (P.register a).lastId = P.lastId + 1 := by
  have hn : nextId P.lastId = P.lastId + 1 := by unfold nextId; rw [if_pos hid]
  have hna : ∀ b s, P.sock b = some s → b ≠ a := by
    rintro b s hb rfl
    exact ha ((h.dom b).mpr ⟨s, hb⟩)
  refine ⟨⟨?_, ?_, ?_, ?_, ?_, ?_, ?_⟩, hn⟩
  · intro b
    rw [hl b, h.dom b]
    by_cases hb : b = a
    · simp [PollSt.register, hb]
    · simp [PollSt.register, hb]
  · intro b c s u hb hc e
    simp only [PollSt.register, hn] at hb hc
    split at hb <;> split at hc
    · rename_i h1 h2; rw [h1, h2]
    · cases hb; have := h.bnd c u hc; simp only at e; omega
    · cases hc; have := h.bnd b s hb; simp only at e; omega
    · exact h.inj b c s u hb hc e
  · intro b s hb
    simp only [PollSt.register, hn] at hb
    split at hb
    · cases hb; simp
    · exact h.pos b s hb
  · intro b s hb
    simp only [PollSt.register, hn] at hb ⊢
    split at hb
    · cases hb; simp
    · have := h.bnd b s hb; omega
  · intro b s hb
    simp only [PollSt.register] at hb ⊢
    split at hb
    · cases hb; exact .inr ⟨rfl, fun hq => absurd rfl hq⟩
    · exact h.cover b s hb
  · intro b hb
    exact (hl b).mpr (.inr (h.fifo b hb))
  · exact h.nodup

theorem ok_pop {P : PollSt} {l : List Addr} (h : P.Ok l) (a : Addr) : (P.pop a).Ok l := by
  have get : ∀ b u, (P.pop a).sock b = some u → ∃ s, P.sock b = some s ∧ u.id = s.id ∧ u.armed = s.armed ∧
      (u.queue ≠ [] → s.queue ≠ []) := by
    intro b u hu
    simp only [PollSt.pop] at hu
    split at hu
    · rename_i hb
      subst hb
      simp only [Option.map_eq_some_iff] at hu
      obtain ⟨s, hs, rfl⟩ := hu
      refine ⟨s, hs, rfl, rfl, ?_⟩
      intro hq e
      exact hq (by simp [e])
    · exact ⟨u, hu, rfl, rfl, id⟩
  refine ⟨?_, ?_, ?_, ?_, ?_, h.fifo, h.nodup⟩
  · intro b
    rw [h.dom b]
    by_cases hb : b = a
    · subst hb
      simp only [PollSt.pop, if_true, Option.map_eq_some_iff]
      constructor
      · rintro ⟨s, hs⟩; exact ⟨_, s, hs, rfl⟩
      · rintro ⟨_, s, hs, _⟩; exact ⟨s, hs⟩
    · simp [PollSt.pop, hb]
  · intro b c s u hb hc e
    obtain ⟨s', h1, h2, -⟩ := get b s hb
    obtain ⟨u', h3, h4, -⟩ := get c u hc
    exact h.inj b c s' u' h1 h3 (by rw [← h2, ← h4]; exact e)
  · intro b s hb
    obtain ⟨s', h1, h2, -⟩ := get b s hb
    rw [h2]; exact h.pos b s' h1
  · intro b s hb
    obtain ⟨s', h1, h2, -⟩ := get b s hb
    rw [h2]; exact h.bnd b s' h1
  · intro b s hb
    obtain ⟨s', h1, h2, h3, h4⟩ := get b s hb
    rcases h.cover b s' h1 with g1 | ⟨g1, g2⟩
    · exact .inl (by rw [h2]; exact g1)
    · exact .inr ⟨by rw [h3]; exact g1, fun hq => g2 (h4 hq)⟩

theorem ok_rearm {P : PollSt} {l : List Addr} (h : P.Ok l) (a : Addr) : (P.rearm a).Ok l := by
  unfold PollSt.rearm
  split
  · exact h
  · rename_i s hs
    have hal : a ∈ l := (h.dom a).mpr ⟨s, hs⟩
    have get : ∀ b u, (if b = a then some { s with armed := true } else P.sock b) = some u →
        ∃ w, P.sock b = some w ∧ u.id = w.id ∧ u.queue = w.queue := by
      intro b u hb
      split at hb
      · rename_i e; subst e; cases hb; exact ⟨s, hs, rfl, rfl⟩
      · exact ⟨u, hb, rfl, rfl⟩
    have sub : ∀ x, x ∈ P.fifo → x ∈ (if s.queue = [] then P.fifo else enqueue (some a) P.fifo) := by
      intro x hx
      split
      · exact hx
      · exact mem_enqueue.mpr (.inr hx)
    refine ⟨?_, ?_, ?_, ?_, ?_, ?_, ?_⟩
    · intro b
      rw [h.dom b]
      by_cases hb : b = a
      · subst hb; simp [hs]
      · simp [hb]
    · intro b c u w hb hc e
      obtain ⟨u', h1, h2, -⟩ := get b u hb
      obtain ⟨w', h3, h4, -⟩ := get c w hc
      exact h.inj b c u' w' h1 h3 (by rw [← h2, ← h4]; exact e)
    · intro b u hb
      obtain ⟨u', h1, h2, -⟩ := get b u hb
      rw [h2]; exact h.pos b u' h1
    · intro b u hb
      obtain ⟨u', h1, h2, -⟩ := get b u hb
      rw [h2]; exact h.bnd b u' h1
    · intro b u hb
      simp only at hb
      split at hb
      · rename_i e
        subst e
        cases hb
        refine .inr ⟨rfl, fun hq => ?_⟩
        simp only at hq ⊢
        rw [if_neg hq]
        exact mem_enqueue.mpr (.inl rfl)
      · rename_i e
        rcases h.cover b u hb with g1 | ⟨g1, g2⟩
        · refine .inl (List.mem_filter.mpr ⟨g1, ?_⟩)
          simp only [ne_eq, decide_not, Bool.not_eq_eq_eq_not, Bool.not_true, decide_eq_false_iff_not]
          intro e'
          exact e (h.inj b a u s hb hs e')
        · exact .inr ⟨g1, fun hq => sub _ (g2 hq)⟩
    · intro b hb
      simp only at hb
      split at hb
      · exact h.fifo b hb
      · rcases mem_enqueue.mp hb with hb | hb
        · cases hb; exact hal
        · exact h.fifo b hb
    · simp only
      split
      · exact h.nodup
      · exact nodup_enqueue h.nodup

theorem ok_scan {P : PollSt} {l : List Addr} (h : P.Ok l) (r : List Addr) : (P.scan r).st.Ok l := by
  induction r generalizing P with
  | nil => exact h
  | cons a r ih =>
    simp only [PollSt.scan]
    split
    · exact ih h
    · split
      · split
        · exact ih h
        · exact ih (ok_pop h a)
        · exact ok_rearm (ok_pop h a) a
      · exact ih h

theorem pop_lastId (P : PollSt) (a : Addr) : (P.pop a).lastId = P.lastId := rfl

theorem rearm_lastId (P : PollSt) (a : Addr) : (P.rearm a).lastId = P.lastId := by unfold PollSt.rearm; split <;> rfl

theorem scan_lastId (P : PollSt) (r : List Addr) : (P.scan r).st.lastId = P.lastId := by
  induction r generalizing P with
  | nil => rfl
  | cons a r ih =>
    simp only [PollSt.scan]
    split
    · exact ih P
    · split
      · split
        · exact ih P
        · exact ih (P.pop a)
        · exact rearm_lastId _ _
      · exact ih P

theorem arrive_lastId (P : PollSt) (x : Arrival) : (P.arrive x).lastId = P.lastId := by
  cases x with
  | main a d => rfl
  | client a x => simp only [PollSt.arrive]; split <;> rfl

theorem arrivals_lastId (P : PollSt) (xs : List Arrival) : (xs.foldl PollSt.arrive P).lastId = P.lastId := by
  induction xs generalizing P with
  | nil => rfl
  | cons x xs ih => rw [List.foldl_cons, ih, arrive_lastId]

/-! ### Asking the clients -/

theorem ready_congr {P Q : PollSt} {a : Addr} (h1 : Q.sock a = P.sock a) (h2 : Q.notified = P.notified) : Q.ready a = P.ready a := by
  simp only [PollSt.ready, h1, h2]

theorem ready_pop {P : PollSt} {a b : Addr} (h : b ≠ a) : (P.pop a).ready b = P.ready b :=
  ready_congr (by simp [PollSt.pop, h]) rfl

theorem pollClients_congr {f g : Addr → Option Bytes} {n : Nat} {l : List (Addr × Conn)} (h : ∀ a ∈ l.map (·.1), f a = g a) :
    pollClients f n l = pollClients g n l := by
  induction l generalizing n with
  | nil => rfl
  | cons x r ih =>
    obtain ⟨a, c⟩ := x
    unfold pollClients
    rw [h a (by simp), ih (fun b hb => h b (by simp at hb ⊢; exact .inr hb))]

/-- The loop of ServerLoop.lean asks the same clients and gets the same datagram. -/
theorem scan_poll (P : PollSt) (n : Nat) (l : List (Addr × Conn)) (h : (l.map (·.1)).Nodup) :
    pollClients P.ready n l = ((P.scan (l.map (·.1))).read, n + (P.scan (l.map (·.1))).asked) := by
  induction l generalizing n P with
  | nil => rfl
  | cons x r ih =>
    obtain ⟨a, c⟩ := x
    simp only [List.map_cons, List.nodup_cons] at h
    unfold pollClients
    simp only [List.map_cons, PollSt.scan]
    have skip : P.ready a = none → (match P.ready a with
        | some d => (some (a, d), n + 1)
        | none => pollClients P.ready (n + 1) r) = ((P.scan (r.map (·.1))).read, n + ((P.scan (r.map (·.1))).asked + 1)) := by
      intro e
      rw [e]
      simp only
      rw [ih P (n + 1) h.2]
      congr 1
      omega
    cases hs : P.sock a with
    | none => exact skip (by simp [PollSt.ready, hs])
    | some s =>
      simp only
      by_cases hn : s.id ∈ P.notified
      · rw [if_pos hn]
        cases hq : s.queue with
        | nil => exact skip (by simp [PollSt.ready, hs, hq])
        | cons x q =>
          cases x with
          | err =>
            rw [show P.ready a = none from by simp [PollSt.ready, hs, hq]]
            simp only
            rw [pollClients_congr (f := P.ready) (g := (P.pop a).ready) (fun b hb =>
              (ready_pop (P := P) (a := a) (b := b) (fun e => h.1 (by rw [← e]; exact hb))).symm),
              ih (P.pop a) (n + 1) h.2]
            congr 1
            omega
          | data d => rw [show P.ready a = some d from by simp [PollSt.ready, hs, hq, hn]]
      · rw [if_neg hn]
        exact skip (by simp [PollSt.ready, hs, hn])

/-! ### One iteration -/

theorem main_addrs {S} (v : Srv S) (s : SrvSt) (t : Nat) (a : Addr) (dg : Bytes) (io : NewIo) :
    (v.step s (.main t a dg io)).1.addrs = s.addrs ∨
    (a ∉ s.addrs ∧ (v.step s (.main t a dg io)).1.addrs.Perm (a :: s.addrs)) := by
  simp only [Srv.step]
  split
  · exact .inl rfl
  · rename_i h1
    split
    · exact .inl rfl
    · split
      · exact .inl rfl
      · right
        refine ⟨?_, (insertClient_perm _ _ _).map (fun x : Addr × Conn => x.1)⟩
        intro hm
        obtain ⟨x, hx, rfl⟩ := List.mem_map.mp hm
        exact h1 (List.any_eq_true.mpr ⟨x, hx, by simp⟩)

theorem seen_turn {S} (v : Srv S) (L : LoopSt) (i : PTurn) (f g : Addr → Option Bytes) (m n : Option (Addr × Bytes)) :
    v.seen L (i.turn f m) = v.seen L (i.turn g n) := rfl

/-- Specification: the clients in the table when the sockets are asked. -/
def Spec.table {S} (v : Srv S) (L : LoopSt) (i : PTurn) : List Addr := v.seen L (i.turn (fun _ => none) none)

/-- The scan of an iteration. -/
def Srv.scanned {S} (v : Srv S) (L : LoopSt) (P : PollSt) (i : PTurn) : Scan :=
  (v.asked L P i).scan ((Spec.table v L i).drop L.nextRecv)

theorem iter_scan {S} (v : Srv S) (L : LoopSt) (Q : PollSt) (i : PTurn) (m : Option (Addr × Bytes)) (hnd : L.srv.addrs.Nodup) :
    (∀ a d, (Q.scan ((Spec.table v L i).drop L.nextRecv)).read = some (a, d) →
      (v.iter L (i.turn Q.ready m)).2.read = some a ∧
      (v.iter L (i.turn Q.ready m)).1.nextRecv = L.nextRecv + (Q.scan ((Spec.table v L i).drop L.nextRecv)).asked ∧
      (v.iter L (i.turn Q.ready m)).1.srv.addrs = Spec.table v L i ∧
      SrvEv.client i.tr a d i.rio ∈ (v.iter L (i.turn Q.ready m)).2.evs) ∧
    ((Q.scan ((Spec.table v L i).drop L.nextRecv)).read = none →
      (v.iter L (i.turn Q.ready m)).2.read = none ∧ (v.iter L (i.turn Q.ready m)).1.nextRecv = 0 ∧
      (m = none → (v.iter L (i.turn Q.ready m)).1.srv.addrs = Spec.table v L i) ∧
      ∀ b d, m = some (b, d) → (b ∈ Spec.table v L i ∨ SrvEv.main i.tr b d i.nio ∈ (v.iter L (i.turn Q.ready m)).2.evs) ∧
        ((v.iter L (i.turn Q.ready m)).1.srv.addrs = Spec.table v L i ∨
          (b ∉ Spec.table v L i ∧ (v.iter L (i.turn Q.ready m)).1.srv.addrs.Perm (b :: Spec.table v L i)))) := by
  have hs : Spec.table v L i = (v.sendRound (v.check L (i.turn Q.ready m)).srv i.ts i.sio).1.addrs :=
    (sendRound_addrs v _ _ _).symm
  have hn : (v.check L (i.turn Q.ready m)).nextRecv = L.nextRecv := by unfold Srv.check; split <;> rfl
  have hnd' : (Spec.table v L i).Nodup := (check_sublist v L (i.turn (fun _ => none) none)).nodup hnd
  generalize hx : (v.sendRound (v.check L (i.turn Q.ready m)).srv i.ts i.sio) = x at hs
  have hp := scan_poll Q L.nextRecv (x.1.clients.drop L.nextRecv) (by
    rw [List.map_drop]
    rw [hs] at hnd'
    exact (List.drop_sublist _ _).nodup hnd')
  rw [show (x.1.clients.drop L.nextRecv).map (·.1) = (Spec.table v L i).drop L.nextRecv from by
    rw [List.map_drop, hs]; rfl] at hp
  refine ⟨?_, ?_⟩
  · intro a d hr
    rw [hr] at hp
    unfold Srv.iter
    simp only [show (i.turn Q.ready m).ts = i.ts from rfl, show (i.turn Q.ready m).sio = i.sio from rfl, hx, hn,
      show (i.turn Q.ready m).ready = Q.ready from rfl, hp]
    refine ⟨trivial, trivial, ?_, ?_⟩
    · rw [client_addrs, hs]
    · simp [show (i.turn Q.ready m).tr = i.tr from rfl, show (i.turn Q.ready m).rio = i.rio from rfl]
  · intro hr
    rw [hr] at hp
    unfold Srv.iter
    simp only [show (i.turn Q.ready m).ts = i.ts from rfl, show (i.turn Q.ready m).sio = i.sio from rfl, hx, hn,
      show (i.turn Q.ready m).ready = Q.ready from rfl, hp]
    cases m with
    | none =>
      simp only [show (i.turn Q.ready none).main = none from rfl]
      exact ⟨trivial, trivial, fun _ => hs.symm, fun b d h => by cases h⟩
    | some y =>
      obtain ⟨b, d⟩ := y
      simp only [show (i.turn Q.ready (some (b, d))).main = some (b, d, i.nio) from rfl]
      split
      · rename_i hb
        refine ⟨rfl, rfl, fun h => (by cases h), ?_⟩
        intro b' d' h
        cases h
        refine ⟨.inl ?_, .inl hs.symm⟩
        rw [hs]
        obtain ⟨z, hz, hz'⟩ := List.any_eq_true.mp hb
        simp only [beq_iff_eq] at hz'
        rw [← hz']
        exact List.mem_map_of_mem (f := (·.1)) hz
      · refine ⟨rfl, rfl, fun h => (by cases h), ?_⟩
        intro b' d' h
        cases h
        refine ⟨.inr ?_, ?_⟩
        · simp [show (i.turn Q.ready (some (b, d))).tr = i.tr from rfl]
        · rw [hs]
          exact main_addrs v x.1 _ b d i.nio

theorem asked_ok {S} (v : Srv S) (L : LoopSt) (P : PollSt) (i : PTurn) (h : P.Ok L.srv.addrs) :
    (v.asked L P i).Ok (Spec.table v L i) :=
  ok_arrivals (ok_keep h (fun _ ha => (check_sublist v L (i.turn (fun _ => none) none)).subset ha)) _

theorem polled_ok {P : PollSt} {l : List Addr} (h : P.Ok l) (i : PTurn) : (P.polled i).Ok l :=
  ok_wait (ok_arrivals (ok_rearmMain h) _) _

theorem ok_mainQ {P : PollSt} {l : List Addr} (h : P.Ok l) (q : List (Addr × Bytes)) : PollSt.Ok { P with mainQ := q } l :=
  ⟨h.dom, h.inj, h.pos, h.bnd, h.cover, h.fifo, h.nodup⟩

theorem ok_perm {P : PollSt} {l l' : List Addr} (h : P.Ok l) (hl : ∀ a, a ∈ l' ↔ a ∈ l) : P.Ok l' :=
  ⟨fun a => by rw [hl, h.dom], h.inj, h.pos, h.bnd, h.cover, fun a ha => (hl a).mpr (h.fifo a ha), h.nodup⟩

theorem asked_lastId {S} (v : Srv S) (L : LoopSt) (P : PollSt) (i : PTurn) : (v.asked L P i).lastId = P.lastId := by
  unfold Srv.asked; rw [arrivals_lastId]; rfl

theorem polled_lastId (P : PollSt) (i : PTurn) : (P.polled i).lastId = P.lastId := by
  unfold PollSt.polled
  rw [show ∀ Q : PollSt, (Q.wait i.room).lastId = Q.lastId from fun _ => rfl, arrivals_lastId]; rfl

/-- The parts of an iteration. -/
theorem piter_read {S} (v : Srv S) (L : LoopSt) (P : PollSt) (i : PTurn) (a : Addr) (d : Bytes)
    (h : (v.scanned L P i).read = some (a, d)) :
    v.piter L P i = ((v.iter L (i.turn (v.asked L P i).ready none)).1, (v.scanned L P i).st,
      ⟨(v.scanned L P i).took, none, none, (v.iter L (i.turn (v.asked L P i).ready none)).2⟩) := by
  unfold Srv.piter
  simp only
  rw [show (v.asked L P i).scan ((v.seen L (i.turn (fun _ => none) none)).drop L.nextRecv) = v.scanned L P i from rfl, h]

/-- The sockets after waiting, in an iteration. -/
def Srv.waited {S} (v : Srv S) (L : LoopSt) (P : PollSt) (i : PTurn) : PollSt := (v.scanned L P i).st.polled i

/-- Who is accepted in an iteration which gets `m` from the main socket. -/
def Srv.taken {S} (v : Srv S) (L : LoopSt) (P : PollSt) (i : PTurn) : Option Addr :=
  match (v.waited L P i).mainQ.head? with
  | some (a, _) => if a ∈ (v.iter L (i.turn (v.asked L P i).ready (v.waited L P i).mainQ.head?)).1.srv.addrs ∧
      a ∉ Spec.table v L i then some a else none
  | none => none

theorem piter_none {S} (v : Srv S) (L : LoopSt) (P : PollSt) (i : PTurn) (h : (v.scanned L P i).read = none) :
    v.piter L P i = ((v.iter L (i.turn (v.asked L P i).ready (v.waited L P i).mainQ.head?)).1,
      (match v.taken L P i with
        | some a => PollSt.register { v.waited L P i with mainQ := (v.waited L P i).mainQ.tail } a
        | none => { v.waited L P i with mainQ := (v.waited L P i).mainQ.tail }),
      ⟨(v.scanned L P i).took, (v.waited L P i).mainQ.head?, v.taken L P i,
        (v.iter L (i.turn (v.asked L P i).ready (v.waited L P i).mainQ.head?)).2⟩) := by
  unfold Srv.piter
  simp only
  rw [show (v.asked L P i).scan ((v.seen L (i.turn (fun _ => none) none)).drop L.nextRecv) = v.scanned L P i from rfl, h]
  rfl

/-- An iteration keeps the sockets and the table together, as long as the numbers do not wrap around. -/
theorem piter_ok {S} (v : Srv S) (L : LoopSt) (P : PollSt) (i : PTurn) (h : P.Ok L.srv.addrs) (hnd : L.srv.addrs.Nodup)
    (hid : (v.piter L P i).2.2.accepted ≠ none → P.lastId + 1 < 2 ^ 32) :
    (v.piter L P i).2.1.Ok (v.piter L P i).1.srv.addrs ∧
    (v.piter L P i).2.1.lastId = P.lastId + (if (v.piter L P i).2.2.accepted = none then 0 else 1) := by
  have hA := asked_ok v L P i h
  have hS : (v.scanned L P i).st.Ok (Spec.table v L i) := ok_scan hA _
  have hSl : (v.scanned L P i).st.lastId = P.lastId := by
    unfold Srv.scanned; rw [scan_lastId, asked_lastId]
  cases hr : (v.scanned L P i).read with
  | some x =>
    obtain ⟨a, d⟩ := x
    obtain ⟨-, -, h3, -⟩ := (iter_scan v L (v.asked L P i) i none hnd).1 a d hr
    rw [piter_read v L P i a d hr]
    simp only [if_true, Nat.add_zero]
    exact ⟨by rw [h3]; exact hS, hSl⟩
  | none =>
    obtain ⟨-, -, h3, h4⟩ := (iter_scan v L (v.asked L P i) i (v.waited L P i).mainQ.head? hnd).2 hr
    rw [piter_none v L P i hr] at hid ⊢
    have hW : (v.waited L P i).Ok (Spec.table v L i) := polled_ok hS i
    have hWl : (v.waited L P i).lastId = P.lastId := by unfold Srv.waited; rw [polled_lastId, hSl]
    simp only at hid ⊢
    cases ht : v.taken L P i with
    | none =>
      simp only [if_true, Nat.add_zero]
      refine ⟨ok_mainQ (ok_perm hW ?_) _, hWl⟩
      intro a
      cases hm : (v.waited L P i).mainQ.head? with
      | none => rw [hm] at h3; rw [h3 rfl]
      | some y =>
        obtain ⟨b, d⟩ := y
        rw [hm] at h4
        rcases (h4 b d rfl).2 with h5 | ⟨h5, h6⟩
        · rw [h5]
        · exfalso
          unfold Srv.taken at ht
          rw [hm] at ht
          simp only at ht
          rw [if_pos ⟨h6.mem_iff.mpr (by simp), h5⟩] at ht
          cases ht
    | some a =>
      rw [ht] at hid
      have hid := hid (by simp)
      unfold Srv.taken at ht
      cases hm : (v.waited L P i).mainQ.head? with
      | none => rw [hm] at ht; cases ht
      | some y =>
        obtain ⟨b, d⟩ := y
        rw [hm] at ht
        simp only at ht
        split at ht
        · rename_i hb
          cases ht
          rw [hm] at h4
          rcases (h4 a d rfl).2 with h5 | ⟨h5, h6⟩
          · exact absurd (by rw [← h5]; exact hb.1) hb.2
          · have := ok_register (l' := (v.iter L (i.turn (v.asked L P i).ready (some (a, d)))).1.srv.addrs)
              (ok_mainQ hW (v.waited L P i).mainQ.tail) a h5
              (fun c => by rw [h6.mem_iff, List.mem_cons]) (by simp only [hWl]; exact hid)
            refine ⟨this.1, ?_⟩
            rw [this.2]
            simp [hWl]
        · cases ht

end Tftp

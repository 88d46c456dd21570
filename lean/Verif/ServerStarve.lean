import Verif.Toy
/-
C40 with clients joining and leaving: how often a waiting client can be overtaken.
-/
namespace Tftp

/-- Specification: who is sent a block by event `k` of a history of the server. -/
def Spec.sentAt {S} (v : Srv S) (evs : List SrvEv) (k : Nat) : Option Addr :=
  evs[k]?.bind (Spec.sender v (v.run ⟨[], 0⟩ (evs.take k)))

/-- Specification: the clients which are being sent a file before event `k`. -/
def Spec.activeAt {S} (v : Srv S) (evs : List SrvEv) (k : Nat) : List Addr := (v.run ⟨[], 0⟩ (evs.take k)).active

/-- Specification: how many of the `d` events from `i` on send a block to somebody. -/
def Spec.turns {S} (v : Srv S) (evs : List SrvEv) (i : Nat) : Nat → Nat
  | 0 => 0
  | d + 1 => Spec.turns v evs i d + (if (Spec.sentAt v evs (i + d)).isSome then 1 else 0)

/-- Specification: how many of the `d` events from `i` on make a client start or stop being sent a file. -/
def Spec.changes {S} (v : Srv S) (evs : List SrvEv) (i : Nat) : Nat → Nat
  | 0 => 0
  | d + 1 => Spec.changes v evs i d + (if Spec.activeAt v evs (i + d + 1) = Spec.activeAt v evs (i + d) then 0 else 1)

theorem turnOrder_mem {L : List Addr} {n : Nat} {y : Addr} : y ∈ turnOrder L n ↔ y ∈ L := by
  unfold turnOrder
  exact (List.perm_append_comm.trans (by rw [List.take_append_drop])).mem_iff

theorem turnOrder_length (L : List Addr) (n : Nat) : (turnOrder L n).length = L.length := by
  unfold turnOrder
  exact (List.perm_append_comm.trans (by rw [List.take_append_drop])).length_eq

theorem idxOf_round {A B : List Addr} {y z : Addr} (hA : y ∉ A) (hz : y ≠ z) (hm : y ∈ A ++ z :: B) :
    (B ++ A ++ [z]).idxOf y + 1 ≤ (A ++ z :: B).idxOf y := by
  have hB : y ∈ B := by
    simp only [List.mem_append, List.mem_cons] at hm
    rcases hm with h | h | h
    · exact absurd h hA
    · exact absurd h hz
    · exact h
  have e1 : (B ++ A ++ [z]).idxOf y = B.idxOf y := by
    rw [List.append_assoc, List.idxOf_append, if_pos hB]
  have e2 : (A ++ z :: B).idxOf y = B.idxOf y + 1 + A.length := by
    rw [List.idxOf_append, if_neg hA, List.idxOf_cons]
    have : (z == y) = false := by simpa using fun h => hz h.symm
    rw [this]; rfl
  omega

/-- **C40**, with clients joining and leaving: consider any stretch of `d` events of any history of the server, throughout which a
client `y` is being sent a file, has something to send in each round, and yet is not sent a block. The number of blocks which
other clients are sent meanwhile is bounded: if no client joins, finishes or fails it is less than `max_connections`, and each such
change adds at most `max_connections`. -/
theorem c40_overtaking_bounded {S} (v : Srv S) (evs : List SrvEv) (i d : Nat) (y : Addr)
    (hact : ∀ k, i ≤ k → k ≤ i + d → y ∈ Spec.activeAt v evs k)
    (hwant : ∀ k t io, i ≤ k → k < i + d → evs[k]? = some (.round t io) → Spec.Wants v (v.run ⟨[], 0⟩ (evs.take k)) t io y)
    (hnot : ∀ k, i ≤ k → k < i + d → Spec.sentAt v evs k ≠ some y) :
    Spec.turns v evs i d + 1 ≤ v.maxConn * (Spec.changes v evs i d + 1) := by
  let st := fun k => v.run ⟨[], 0⟩ (evs.take k)
  let pot := fun k => (turnOrder (st k).active (st k).next).idxOf y
  have hnd : ∀ k, (st k).addrs.Nodup := fun k => (c22_table_bound v (evs.take k)).2
  have hpot : ∀ k, i ≤ k → k ≤ i + d → pot k + 1 ≤ v.maxConn := by
    intro k h1 h2
    have hm : y ∈ turnOrder (st k).active (st k).next := turnOrder_mem.mpr (hact k h1 h2)
    have hl := List.idxOf_lt_length_of_mem hm
    rw [turnOrder_length] at hl
    have h3 : (st k).active.length ≤ (st k).clients.length := by
      simp only [SrvSt.active, List.length_map]; exact List.length_filter_le _ _
    have h4 := (c22_table_bound v (evs.take k)).1
    show (turnOrder (st k).active (st k).next).idxOf y + 1 ≤ v.maxConn
    have : (st k).clients.length ≤ v.maxConn := h4
    omega
  have key : ∀ m, m ≤ d → Spec.turns v evs i m + pot (i + m) ≤ pot i + v.maxConn * Spec.changes v evs i m := by
    intro m
    induction m with
    | zero => intro _; simp [Spec.turns, Spec.changes]
    | succ m ih =>
      intro hm
      have ih := ih (by omega)
      simp only [Spec.turns, Spec.changes]
      by_cases hc : Spec.activeAt v evs (i + m + 1) = Spec.activeAt v evs (i + m)
      · rw [if_pos hc]
        simp only [Nat.add_zero]
        have ha : (st (i + m + 1)).active = (st (i + m)).active := hc
        cases he : evs[i + m]? with
        | none =>
          have h0 : Spec.sentAt v evs (i + m) = none := by simp [Spec.sentAt, he]
          have hle := List.getElem?_eq_none_iff.mp he
          have hs : st (i + m + 1) = st (i + m) := by
            simp only [st]; rw [List.take_of_length_le (by omega), List.take_of_length_le hle]
          rw [h0]
          have : pot (i + (m + 1)) = pot (i + m) := by
            simp only [pot]; rw [show i + (m + 1) = i + m + 1 from by omega, hs]
          simp only [Option.isSome_none, Bool.false_eq_true, if_false, Nat.add_zero]
          omega
        | some e =>
          have hs : st (i + m + 1) = (v.step (st (i + m)) e).1 := by
            simp only [st]
            rw [List.take_succ_eq_append_getElem (List.getElem?_eq_some_iff.mp he).1, (List.getElem?_eq_some_iff.mp he).2, run_snoc]
          have h0 : Spec.sentAt v evs (i + m) = Spec.sender v (st (i + m)) e := by simp [Spec.sentAt, he, st]
          cases hz : Spec.sender v (st (i + m)) e with
          | none =>
            have hn : (st (i + m + 1)).next = (st (i + m)).next := by rw [hs]; exact step_next v _ e hz
            have : pot (i + (m + 1)) = pot (i + m) := by
              simp only [pot]; rw [show i + (m + 1) = i + m + 1 from by omega, hn, ha]
            rw [h0, hz]
            simp only [Option.isSome_none, Bool.false_eq_true, if_false, Nat.add_zero]
            omega
          | some z =>
            have hzy : y ≠ z := by
              rintro rfl
              exact hnot (i + m) (by omega) (by omega) (h0.trans hz)
            cases e with
            | purge t io => cases hz
            | client t a dg io => cases hz
            | main t a dg io => cases hz
            | round t io =>
              have hs' : st (i + m + 1) = (v.sendRound (st (i + m)) t io).1 := hs
              obtain ⟨A, B, e1, e2, _, e4, _⟩ := round_order v (st (i + m)) (hnd _) t io z hz (by rw [← hs']; exact ha)
              have hw : Spec.Wants v (st (i + m)) t io y := hwant (i + m) t io (by omega) (by omega) he
              have hmem : y ∈ A ++ z :: B := by
                rw [← e1]; exact turnOrder_mem.mpr (hact (i + m) (by omega) (by omega))
              have hd := idxOf_round (fun hA => e2 y hA hw) hzy hmem
              have p1 : pot (i + m) = (A ++ z :: B).idxOf y := by simp only [pot]; rw [e1]
              have p2 : pot (i + (m + 1)) = (B ++ A ++ [z]).idxOf y := by
                simp only [pot]
                rw [show i + (m + 1) = i + m + 1 from by omega, ha, hs', e4]
              rw [h0, hz]
              simp only [Option.isSome_some, if_true]
              omega
      · rw [if_neg hc, Nat.mul_add, Nat.mul_one]
        have := hpot (i + (m + 1)) (by omega) (by omega)
        split <;> omega
  have h1 := key d (Nat.le_refl _)
  have h2 := hpot i (Nat.le_refl _) (by omega)
  rw [Nat.mul_add, Nat.mul_one]
  omega

/-! ### A client which is never served -/

/-- A property of every step of a history. -/
def Along {S} (v : Srv S) (P : SrvSt → SrvEv → Prop) : SrvSt → List SrvEv → Prop
  | _, [] => True
  | s, e :: r => P s e ∧ Along v P (v.step s e).1 r

theorem along_append {S} {v : Srv S} {P : SrvSt → SrvEv → Prop} {s : SrvSt} {a b : List SrvEv} (h1 : Along v P s a)
    (h2 : Along v P (v.run s a) b) : Along v P s (a ++ b) := by
  induction a generalizing s with
  | nil => exact h2
  | cons e r ih => exact ⟨h1.1, ih h1.2 h2⟩

theorem along_at {S} {v : Srv S} {P : SrvSt → SrvEv → Prop} {s : SrvSt} {evs : List SrvEv} (h : Along v P s evs) (k : Nat)
    (e : SrvEv) (he : evs[k]? = some e) : P (v.run s (evs.take k)) e := by
  induction evs generalizing s k with
  | nil => simp at he
  | cons x r ih =>
    cases k with
    | zero => simp only [List.getElem?_cons_zero, Option.some.injEq] at he; subst he; exact h.1
    | succ k => exact ih h.2 k (by simpa using he)

/-- The number of steps of a history which send a block. -/
def sentCount {S} (v : Srv S) : SrvSt → List SrvEv → Nat
  | _, [] => 0
  | s, e :: r => (if (Spec.sender v s e).isSome then 1 else 0) + sentCount v (v.step s e).1 r

theorem sentCount_append {S} (v : Srv S) (s : SrvSt) (a b : List SrvEv) :
    sentCount v s (a ++ b) = sentCount v s a + sentCount v (v.run s a) b := by
  induction a generalizing s with
  | nil => simp [sentCount, Srv.run]
  | cons e r ih =>
    simp only [List.cons_append, sentCount, ih]
    show _ = _ + sentCount v (v.run (v.step s e).1 r) b
    omega

theorem turns_eq {S} (v : Srv S) (pre evs : List SrvEv) (d : Nat) (hd : d ≤ evs.length) :
    Spec.turns v (pre ++ evs) pre.length d = sentCount v (v.run ⟨[], 0⟩ pre) (evs.take d) := by
  induction d with
  | zero => simp [Spec.turns, sentCount]
  | succ d ih =>
    have hlt : d < evs.length := by omega
    rw [Spec.turns, ih (by omega), List.take_succ_eq_append_getElem hlt, sentCount_append]
    have h1 : (pre ++ evs)[pre.length + d]? = some evs[d] := by
      rw [List.getElem?_append_right (by omega), Nat.add_sub_cancel_left, List.getElem?_eq_getElem hlt]
    have h2 : v.run ⟨[], 0⟩ ((pre ++ evs).take (pre.length + d)) = v.run (v.run ⟨[], 0⟩ pre) (evs.take d) := by
      rw [List.take_length_add_append]; simp [Srv.run]
    simp only [Spec.sentAt, h1, Option.bind_some, h2, sentCount, Nat.add_zero]

namespace Toy

set_option maxRecDepth 4000

/-- The toy server with a longer request timeout. -/
def patient (r : Nat) : Srv sig := { srv with cfg := { cfg with requestTimeout := r } }

theorem patient_accepts (r t : Nat) : (patient r).newConn t rrq io = ⟨[], .ok (reader t, [])⟩ :=
  newConn_read (v := patient r) (t := t) (dg := rrq) (b := rrq) (io := io) (hs := none) (r := ⟨[97], Exts.empty⟩) (used := Exts.empty)
    (o := Opts.default) (keys := none) (name := [97]) (size := some 3) (file := [7, 8, 9]) rfl rfl rfl rfl normalizeName_a rfl rfl rfl

theorem patient_join {s : SrvSt} (r t : Nat) (a : Addr) (h1 : s.clients.any (fun x => x.1 == a) = false)
    (h2 : s.clients.length < 10) :
    ((patient r).step s (.main t a rrq io)).1 = { s with clients := insertClient a (reader t) s.clients } := by
  have h3 : ¬ s.clients.length ≥ (patient r).maxConn := by show ¬ s.clients.length ≥ 10; omega
  simp only [Srv.step, h1, h3, patient_accepts, if_false, Bool.false_eq_true]

/-- The favoured client: its block was last sent at `ls`. -/
def favoured (ls m : Nat) : Conn :=
  { reader 0 with side := ((patient 0).sendBlock (reader 0) 1 (sio 2)).1.side, lastSent := ls, mult := m }

/-- The packet with which a client gives up. -/
def giveUp : Bytes := [0, 5, 0, 0, 120, 0]

def rwio : RecvIo := ⟨WriteIo.all, true, 0⟩

/-- Client 1 joins, client 2 is served, client 1 gives up and is dropped, client 2 is served. -/
def spin (t : Nat) : List SrvEv :=
  [.main t 1 rrq io, .round t sio, .client t 1 giveUp rwio, .purge t (fun _ => rwio), .round (t + 30000) sio]

theorem favoured_again (r t ls m : Nat) (hm : m ≤ 255) (ht : ls + 20400 < t) :
    (patient r).sendBlock (favoured ls m) t (sio 2) = (favoured t (min 255 (m + 2)), some [0, 3, 0, 1, 7, 8, 9], true) := by
  have h : (favoured ls m).retryDue t = true := by
    simp only [Conn.retryDue, decide_eq_true_eq]
    show t - ls > 80 * m
    omega
  unfold Srv.sendBlock
  rw [h]
  rfl

/-- The server at the start of each turn of the wheel. -/
def before3 (ls m : Nat) : SrvSt := ⟨[(2, favoured ls m), (3, reader 0)], 1⟩

/-- The client which waits is being sent a file, wants to send in this step, and is passed over. -/
def PassedOver (r : Nat) (s : SrvSt) (e : SrvEv) : Prop :=
  3 ∈ s.active ∧ 3 ∈ ((patient r).step s e).1.active ∧
  (∀ t io, e = .round t io → Spec.Wants (patient r) s t io 3) ∧ (Spec.sender (patient r) s e = none ∨ Spec.sender (patient r) s e = some 2)

theorem waiting_wants (r t : Nat) : ((patient r).sendBlock (reader 0) t (sio 3)).2.2 = true := by
  unfold Srv.sendBlock
  cases (reader 0).retryDue t <;> rfl

/-- Client 1 after giving up. -/
def gone (t : Nat) : Conn := ((patient 0).handle (reader t) t giveUp rwio).1

theorem spin_step (r t ls m : Nat) (hm : m ≤ 255) (ht : ls + 20400 < t) (hr : t ≤ r) :
    Along (patient r) (PassedOver r) (before3 ls m) (spin t) ∧
    (patient r).run (before3 ls m) (spin t) = before3 (t + 30000) (min 255 (min 255 (m + 2) + 2)) ∧
    sentCount (patient r) (before3 ls m) (spin t) = 2 := by
  have s1 : ((patient r).step (before3 ls m) (.main t 1 rrq io)).1 = ⟨[(1, reader t), (2, favoured ls m), (3, reader 0)], 1⟩ := by
    rw [patient_join r t 1 rfl (by simp [before3])]; rfl
  have r2 : (patient r).sendRound ⟨[(1, reader t), (2, favoured ls m), (3, reader 0)], 1⟩ t sio =
      (⟨[(1, reader t), (2, favoured t (min 255 (m + 2))), (3, reader 0)], 2⟩, some 2, [(2, [0, 3, 0, 1, 7, 8, 9])]) := by
    have f := favoured_again r t ls m hm ht
    have a1 : (reader t).active = true := rfl
    have a2 : (favoured ls m).active = true := rfl
    simp only [Srv.sendRound, Srv.pass, a1, a2, f, if_true]
    simp
  have s3 : ((patient r).step ⟨[(1, reader t), (2, favoured t (min 255 (m + 2))), (3, reader 0)], 2⟩ (.client t 1 giveUp rwio)).1 =
      ⟨[(1, gone t), (2, favoured t (min 255 (m + 2))), (3, reader 0)], 2⟩ := rfl
  have s4 : ((patient r).step ⟨[(1, gone t), (2, favoured t (min 255 (m + 2))), (3, reader 0)], 2⟩ (.purge t fun _ => rwio)).1 =
      ⟨[(2, favoured t (min 255 (m + 2))), (3, reader 0)], 2⟩ := by
    have d1 : ((patient r).timeout (gone t) t rwio).1 = true := rfl
    have d2 : ((patient r).timeout (favoured t (min 255 (m + 2))) t rwio).1 = false := by
      simp only [Srv.timeout]
      rw [if_neg (by show ¬ (false || false) = true; simp), if_pos (by show t - 0 ≤ r; omega)]
    have d3 : ((patient r).timeout (reader 0) t rwio).1 = false := by
      simp only [Srv.timeout]
      rw [if_neg (by decide), if_pos (by show t - 0 ≤ r; omega)]
    simp only [Srv.step, List.filter, d1, d2, d3, Bool.not_true, Bool.not_false]
  have r5 : (patient r).sendRound ⟨[(2, favoured t (min 255 (m + 2))), (3, reader 0)], 2⟩ (t + 30000) sio =
      (before3 (t + 30000) (min 255 (min 255 (m + 2) + 2)), some 2, [(2, [0, 3, 0, 1, 7, 8, 9])]) := by
    have f := favoured_again r (t + 30000) t (min 255 (m + 2)) (by omega) (by omega)
    have a1 : (reader 0).active = true := rfl
    have a2 : (favoured t (min 255 (m + 2))).active = true := rfl
    simp only [Srv.sendRound, Srv.pass, a1, a2, f, if_true]
    simp [before3, Srv.pass, a2, f]
  have c1 : ∀ x y n, Spec.Wants (patient r) ⟨[(1, x), (2, y), (3, reader 0)], n⟩ t sio 3 := fun _ _ _ =>
    ⟨reader 0, rfl, rfl, waiting_wants r t⟩
  have c2 : ∀ y n, Spec.Wants (patient r) ⟨[(2, y), (3, reader 0)], n⟩ (t + 30000) sio 3 := fun _ _ =>
    ⟨reader 0, rfl, rfl, waiting_wants r _⟩
  have m1 : ∀ x y n, 3 ∈ (⟨[(1, x), (2, y), (3, reader 0)], n⟩ : SrvSt).active := fun x y n => by
    simp only [SrvSt.active, List.mem_map, List.mem_filter]
    exact ⟨(3, reader 0), ⟨by simp, rfl⟩, rfl⟩
  have m2 : ∀ y n, 3 ∈ (⟨[(2, y), (3, reader 0)], n⟩ : SrvSt).active := fun y n => by
    simp only [SrvSt.active, List.mem_map, List.mem_filter]
    exact ⟨(3, reader 0), ⟨by simp, rfl⟩, rfl⟩
  have s2 : ((patient r).step ⟨[(1, reader t), (2, favoured ls m), (3, reader 0)], 1⟩ (.round t sio)).1 =
      ⟨[(1, reader t), (2, favoured t (min 255 (m + 2))), (3, reader 0)], 2⟩ := by
    show ((patient r).sendRound _ t sio).1 = _
    rw [r2]
  have s5 : ((patient r).step ⟨[(2, favoured t (min 255 (m + 2))), (3, reader 0)], 2⟩ (.round (t + 30000) sio)).1 =
      before3 (t + 30000) (min 255 (min 255 (m + 2) + 2)) := by
    show ((patient r).sendRound _ (t + 30000) sio).1 = _
    rw [r5]
  have q2 : Spec.sender (patient r) ⟨[(1, reader t), (2, favoured ls m), (3, reader 0)], 1⟩ (.round t sio) = some 2 := by
    show ((patient r).sendRound _ t sio).2.1 = _
    rw [r2]
  have q5 : Spec.sender (patient r) ⟨[(2, favoured t (min 255 (m + 2))), (3, reader 0)], 2⟩ (.round (t + 30000) sio) = some 2 := by
    show ((patient r).sendRound _ (t + 30000) sio).2.1 = _
    rw [r5]
  refine ⟨?_, ?_, ?_⟩
  · simp only [Along, spin, PassedOver, s1, s2, s3, s4, s5, q2, q5, and_true]
    refine ⟨⟨m2 _ _, m1 _ _ _, (fun _ _ h => by cases h), .inl rfl⟩, ⟨m1 _ _ _, m1 _ _ _, ?_, .inr trivial⟩,
      ⟨m1 _ _ _, m1 _ _ _, (fun _ _ h => by cases h), .inl rfl⟩, ⟨m1 _ _ _, m2 _ _, (fun _ _ h => by cases h), .inl rfl⟩,
      m2 _ _, m2 _ _, ?_, .inr trivial⟩
    · intro _ _ h; cases h; exact c1 _ _ _
    · intro _ _ h; cases h; exact c2 _ _
  · simp only [Srv.run, spin, List.foldl, s1, s2, s3, s4, s5]
  · simp only [sentCount, spin, s1, s2, s3, s4, q2, q5]
    rfl

/-- `n` turns of the wheel from time `t` on. -/
def spins (t : Nat) : Nat → List SrvEv
  | 0 => []
  | n + 1 => spin t ++ spins (t + 60000) n

theorem spins_step (r n t ls m : Nat) (hm : m ≤ 255) (ht : ls + 20400 < t) (hr : t + 60000 * n ≤ r) :
    Along (patient r) (PassedOver r) (before3 ls m) (spins t n) ∧
    sentCount (patient r) (before3 ls m) (spins t n) = 2 * n := by
  induction n generalizing t ls m with
  | zero => exact ⟨trivial, rfl⟩
  | succ n ih =>
    obtain ⟨h1, h2, h3⟩ := spin_step r t ls m hm ht (by omega)
    obtain ⟨h4, h5⟩ := ih (t + 60000) (t + 30000) (min 255 (min 255 (m + 2) + 2)) (by omega) (by omega) (by omega)
    refine ⟨along_append h1 (by rw [h2]; exact h4), ?_⟩
    rw [spins, sentCount_append, h3, h2, h5]
    omega

/-- Clients 2 and 3 join, client 2 is served. -/
def opening : List SrvEv := [.main 0 2 rrq io, .main 0 3 rrq io, .round 1 sio]

theorem opening_run (r : Nat) : (patient r).run ⟨[], 0⟩ opening = before3 1 1 := by
  simp only [Srv.run, opening, List.foldl]
  rw [patient_join r 0 2 rfl (by decide), patient_join r 0 3 rfl (by simp [insertClient])]
  rfl

end Toy

/-- Finding (C40): with clients joining and leaving, a client can wait for ever. For every `n` there are a server and a history in
which a client (3) is being sent a file and has a block to send in every round, another client (2) is sent `2 * n` blocks and the
first one none. It takes a third client (1) with a smaller address which joins and gives up again and again: the turn is remembered
as an index into the table of active clients, and each change of the table moves the turn back to client 2. (These are exactly the
hypotheses of `c40_overtaking_bounded`, whose bound grows with the number of changes.) -/
theorem c40_starvation (n : Nat) : ∃ (S : SigScheme) (v : Srv S) (evs : List SrvEv) (i d : Nat),
    (∀ k, i ≤ k → k ≤ i + d → 3 ∈ Spec.activeAt v evs k) ∧
    (∀ k t io, i ≤ k → k < i + d → evs[k]? = some (.round t io) → Spec.Wants v (v.run ⟨[], 0⟩ (evs.take k)) t io 3) ∧
    (∀ k, i ≤ k → k < i + d → Spec.sentAt v evs k = none ∨ Spec.sentAt v evs k = some 2) ∧
    Spec.turns v evs i d = 2 * n := by
  obtain ⟨h1, h2⟩ := Toy.spins_step (30000 + 60000 * n) n 30000 1 1 (by omega) (by omega) (Nat.le_refl _)
  generalize hE : Toy.spins 30000 n = E at h1 h2
  generalize hv : Toy.patient (30000 + 60000 * n) = v at *
  have hrun : v.run ⟨[], 0⟩ Toy.opening = Toy.before3 1 1 := by rw [← hv]; exact Toy.opening_run _
  have htake : ∀ k, v.run ⟨[], 0⟩ ((Toy.opening ++ E).take (Toy.opening.length + k)) = v.run (Toy.before3 1 1) (E.take k) := by
    intro k
    rw [List.take_length_add_append, ← hrun]; simp [Srv.run]
  have hget : ∀ k, (Toy.opening ++ E)[Toy.opening.length + k]? = E[k]? := by
    intro k; rw [List.getElem?_append_right (by omega), Nat.add_sub_cancel_left]
  refine ⟨_, v, Toy.opening ++ E, Toy.opening.length, E.length, ?_, ?_, ?_, ?_⟩
  · intro k hk1 hk2
    obtain ⟨j, rfl⟩ : ∃ j, k = Toy.opening.length + j := ⟨k - Toy.opening.length, by omega⟩
    unfold Spec.activeAt
    rw [htake]
    cases j with
    | zero => exact (by decide +kernel : 3 ∈ (Toy.before3 1 1).active)
    | succ j =>
      have hlt : j < E.length := by omega
      have := (along_at h1 j _ (List.getElem?_eq_getElem hlt)).2.1
      rw [List.take_succ_eq_append_getElem hlt, run_snoc, ← hv]
      rw [← hv] at this
      exact this
  · intro k t io hk1 hk2 he
    obtain ⟨j, rfl⟩ : ∃ j, k = Toy.opening.length + j := ⟨k - Toy.opening.length, by omega⟩
    rw [hget] at he
    rw [htake, ← hv]
    have := (along_at h1 j _ he).2.2.1 t io rfl
    rw [← hv] at this
    exact this
  · intro k hk1 hk2
    obtain ⟨j, rfl⟩ : ∃ j, k = Toy.opening.length + j := ⟨k - Toy.opening.length, by omega⟩
    have hlt : j < E.length := by omega
    have := (along_at h1 j _ (List.getElem?_eq_getElem hlt)).2.2.2
    simp only [Spec.sentAt, hget, htake, List.getElem?_eq_getElem hlt, Option.bind_some]
    rw [← hv]
    rw [← hv] at this
    exact this
  · rw [turns_eq v Toy.opening E E.length (Nat.le_refl _), hrun, List.take_length, h2]


end Tftp

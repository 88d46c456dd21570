import Verif.PollProps
/-
C67: every datagram is read, within a number of iterations which depends on the number of clients only.
-/
namespace Tftp

/-- The next thing at the socket of `a` is `x`. -/
def PollSt.Head (P : PollSt) (a : Addr) (x : Item) : Prop := ∃ s q, P.sock a = some s ∧ s.queue = x :: q

/-- The server will ask the socket of `a`. -/
def PollSt.Noti (P : PollSt) (a : Addr) : Prop := ∃ s, P.sock a = some s ∧ s.id ∈ P.notified

/-- The socket of `a` is one of the next `n` to be reported. -/
def PollSt.Near (P : PollSt) (a : Addr) (n : Nat) : Prop := ∃ A B, P.fifo = A ++ some a :: B ∧ A.length < n

/-- `x` waits at the socket of `a` and the server will find out. -/
def PollSt.Tr (P : PollSt) (a : Addr) (x : Item) (n : Nat) : Prop := P.Head a x ∧ (P.Noti a ∨ P.Near a n)

theorem tr_of {P Q : PollSt} {a : Addr} {x : Item} {n : Nat} (h : P.Tr a x n)
    (h1 : ∀ s q, P.sock a = some s → s.queue = x :: q → ∃ u q', Q.sock a = some u ∧ u.id = s.id ∧ u.queue = x :: q')
    (h2 : ∀ s, P.sock a = some s → s.id ∈ P.notified → s.id ∈ Q.notified)
    (h3 : P.Near a n → Q.Near a n) : Q.Tr a x n := by
  obtain ⟨⟨s, q, hs, hq⟩, hn⟩ := h
  obtain ⟨u, q', hu, hid, hq'⟩ := h1 s q hs hq
  refine ⟨⟨u, q', hu, hq'⟩, ?_⟩
  rcases hn with ⟨s', hs', hn⟩ | hn
  · rw [hs] at hs'; cases hs'
    exact .inl ⟨u, hu, by rw [hid]; exact h2 s hs hn⟩
  · exact .inr (h3 hn)

theorem near_enqueue {P Q : PollSt} {a : Addr} {n : Nat} {y : Option Addr} (h : P.Near a n) (e : Q.fifo = enqueue y P.fifo) :
    Q.Near a n := by
  obtain ⟨A, B, h1, h2⟩ := h
  unfold enqueue at e
  split at e
  · exact ⟨A, B, e.trans h1, h2⟩
  · exact ⟨A, B ++ [y], by rw [e, h1]; simp, h2⟩

theorem near_same {P Q : PollSt} {a : Addr} {n : Nat} (h : P.Near a n) (e : Q.fifo = P.fifo) : Q.Near a n := by
  unfold PollSt.Near; rw [e]; exact h

theorem tr_arrive {P : PollSt} {a : Addr} {x : Item} {n : Nat} (h : P.Tr a x n) (y : Arrival) : (P.arrive y).Tr a x n := by
  cases y with
  | main b d =>
    refine tr_of h (fun s q hs hq => ⟨s, q, hs, rfl, hq⟩) (fun s _ hn => hn) ?_
    intro hn
    by_cases hm : P.mainArmed = true
    · exact near_enqueue (y := none) hn (by simp [PollSt.arrive, hm])
    · exact near_same hn (by simp [PollSt.arrive, hm])
  | client b y =>
    simp only [PollSt.arrive]
    split
    · exact h
    · rename_i u hu
      refine tr_of h ?_ (fun s _ hn => hn) ?_
      · intro s q hs hq
        by_cases hb : a = b
        · subst hb
          rw [hs] at hu; cases hu
          exact ⟨{ u with queue := u.queue ++ [y] }, q ++ [y], by simp, rfl, by simp [hq]⟩
        · exact ⟨s, q, by simp [hb, hs], rfl, hq⟩
      · intro hn
        by_cases hm : u.armed = true
        · exact near_enqueue (y := some b) hn (by simp [hm])
        · exact near_same hn (by simp [hm])

theorem tr_arrivals {P : PollSt} {a : Addr} {x : Item} {n : Nat} (h : P.Tr a x n) (ys : List Arrival) :
    (ys.foldl PollSt.arrive P).Tr a x n := by
  induction ys generalizing P with
  | nil => exact h
  | cons y ys ih => exact ih (tr_arrive h y)

theorem near_filter {P Q : PollSt} {a : Addr} {n : Nat} {p : Option Addr → Bool} (h : P.Near a n) (hp : p (some a) = true)
    (e : Q.fifo = P.fifo.filter p) : Q.Near a n := by
  obtain ⟨A, B, h1, h2⟩ := h
  refine ⟨A.filter p, B.filter p, ?_, Nat.lt_of_le_of_lt (List.length_filter_le _ _) h2⟩
  rw [e, h1, List.filter_append, List.filter_cons_of_pos hp]

theorem tr_keep {P : PollSt} {a : Addr} {x : Item} {n : Nat} (h : P.Tr a x n) {l : List Addr} (ha : a ∈ l) : (P.keep l).Tr a x n := by
  refine tr_of h (fun s q hs hq => ⟨s, q, by simp [PollSt.keep, ha, hs], rfl, hq⟩) (fun s _ hn => hn) ?_
  intro hn
  refine near_filter hn ?_ rfl
  simpa using ha

theorem tr_rearmMain {P : PollSt} {l : List Addr} (hok : P.Ok l) {a : Addr} {x : Item} {n : Nat} (h : P.Tr a x n) :
    P.rearmMain.Tr a x n := by
  refine tr_of h (fun s q hs hq => ⟨s, q, hs, rfl, hq⟩) ?_ ?_
  · intro s hs hn
    exact List.mem_filter.mpr ⟨hn, by simpa using hok.pos a s hs⟩
  · intro hn
    by_cases hm : P.mainQ = []
    · exact near_same hn (by simp [PollSt.rearmMain, hm])
    · exact near_enqueue (y := none) hn (by simp [PollSt.rearmMain, hm])

theorem tr_pop {P : PollSt} {a b : Addr} {x : Item} {n : Nat} (h : P.Tr a x n) (hb : a ≠ b) : (P.pop b).Tr a x n :=
  tr_of h (fun s q hs hq => ⟨s, q, by simp [PollSt.pop, hb, hs], rfl, hq⟩) (fun _ _ hn => hn) (fun hn => near_same hn rfl)

theorem tr_rearm {P : PollSt} {l : List Addr} (hok : P.Ok l) {a b : Addr} {x : Item} {n : Nat} (h : P.Tr a x n) (hb : a ≠ b) :
    (P.rearm b).Tr a x n := by
  unfold PollSt.rearm
  split
  · exact h
  · rename_i u hu
    refine tr_of h (fun s q hs hq => ⟨s, q, by simp [hb, hs], rfl, hq⟩) ?_ ?_
    · intro s hs hn
      refine List.mem_filter.mpr ⟨hn, ?_⟩
      simp only [ne_eq, decide_not, Bool.not_eq_eq_eq_not, Bool.not_true, decide_eq_false_iff_not]
      exact fun e => hb (hok.inj a b s u hs hu e)
    · intro hn
      by_cases hm : u.queue = []
      · exact near_same hn (by simp [hm])
      · exact near_enqueue (y := some b) hn (by simp [hm])

/-- The clients' sockets are asked: `x` is taken out, or waits on. -/
theorem tr_scan {P : PollSt} {l : List Addr} (hok : P.Ok l) {a : Addr} {x : Item} {n : Nat} (h : P.Tr a x n) (r : List Addr) :
    (a, x) ∈ (P.scan r).took ∨ (P.scan r).st.Tr a x n := by
  induction r generalizing P with
  | nil => exact .inr h
  | cons b r ih =>
    simp only [PollSt.scan]
    cases hs : P.sock b with
    | none => simpa using ih hok h
    | some s =>
      simp only
      by_cases hn : s.id ∈ P.notified
      · rw [if_pos hn]
        by_cases hab : a = b
        · subst hab
          obtain ⟨⟨u, q, hu, hq⟩, -⟩ := h
          rw [hs] at hu; cases hu
          rw [hq]
          cases x <;> exact .inl (by simp)
        · cases hq : s.queue with
          | nil => simpa using ih hok h
          | cons y q =>
            cases y with
            | err =>
              rcases ih (ok_pop hok b) (tr_pop h hab) with h1 | h1
              · exact .inl (by simp [h1])
              · exact .inr h1
            | data d => exact .inr (tr_rearm (ok_pop hok b) (tr_pop h hab) hab)
      · rw [if_neg hn]; simpa using ih hok h

/-- Whoever is asked and has something gives it away. -/
theorem scan_visits {P : PollSt} {a : Addr} {x : Item} (h : P.Head a x) (hn : P.Noti a) (r : List Addr) (hnd : r.Nodup) (k : Nat)
    (hk : r[k]? = some a) (hv : (P.scan r).read = none ∨ k < (P.scan r).asked) : (a, x) ∈ (P.scan r).took := by
  induction r generalizing P k with
  | nil => cases hk
  | cons b r ih =>
    rw [List.nodup_cons] at hnd
    obtain ⟨u, q, hu, hq⟩ := h
    obtain ⟨w, hw, hn⟩ := hn
    rw [hu] at hw; cases hw
    cases k with
    | zero =>
      simp only [List.getElem?_cons_zero, Option.some.injEq] at hk
      subst hk
      simp only [PollSt.scan, hu, if_pos hn, hq]
      cases x <;> simp
    | succ k =>
      simp only [List.getElem?_cons_succ] at hk
      have hab : a ≠ b := fun e => hnd.1 (by rw [← e]; exact List.mem_of_getElem? hk)
      have skip : ∀ t, ((P.scan r).read = none ∨ k + 1 < (P.scan r).asked + 1) → (a, x) ∈ t ++ (P.scan r).took := by
        intro t hv
        have := ih ⟨u, q, hu, hq⟩ ⟨u, hu, hn⟩ hnd.2 k hk (hv.imp_right (by omega))
        simp [this]
      simp only [PollSt.scan] at hv ⊢
      cases hs : P.sock b with
      | none => rw [hs] at hv; exact skip _ hv
      | some s =>
        rw [hs] at hv
        simp only at hv ⊢
        by_cases hn' : s.id ∈ P.notified
        · rw [if_pos hn'] at hv ⊢
          cases hq' : s.queue with
          | nil => rw [hq'] at hv; exact skip _ hv
          | cons y q' =>
            rw [hq'] at hv
            cases y with
            | err =>
              simp only at hv ⊢
              have := ih (P := P.pop b) ⟨u, q, by simp [PollSt.pop, hab, hu], hq⟩ ⟨u, by simp [PollSt.pop, hab, hu], hn⟩ hnd.2 k hk
                (hv.imp_right (by omega))
              simp [this]
            | data d => rcases hv with hv | hv <;> simp at hv
        · rw [if_neg hn'] at hv ⊢; exact skip _ hv

theorem tr_wait {P : PollSt} {a : Addr} {x : Item} {n : Nat} (h : P.Tr a x n) (m : Nat) :
    (P.wait m).Tr a x (n - 1) := by
  obtain ⟨⟨s, q, hs, hq⟩, hn⟩ := h
  have hsock : ∃ u, (P.wait m).sock a = some u ∧ u.id = s.id ∧ u.queue = s.queue := by
    refine ⟨_, by simp only [PollSt.wait, hs, Option.map_some]; rfl, ?_, ?_⟩
    · split <;> rfl
    · split <;> rfl
  obtain ⟨u, hu, hid, huq⟩ := hsock
  have hhead : (P.wait m).Head a x := ⟨u, q, hu, huq.trans hq⟩
  rcases hn with ⟨s', hs', hn⟩ | ⟨A, B, hf, hl⟩
  · rw [hs] at hs'; cases hs'
    have : (P.wait m).Noti a := ⟨u, hu, by rw [hid]; exact List.mem_append.mpr (.inl hn)⟩
    exact ⟨hhead, .inl this⟩
  · have hw : P.waiting (some a) = true := by simp [PollSt.waiting, hs, hq]
    have hfl : P.fifo.filter P.waiting = A.filter P.waiting ++ some a :: B.filter P.waiting := by
      rw [hf, List.filter_append, List.filter_cons_of_pos hw]
    by_cases hr : (A.filter P.waiting).length < m + 1
    · have hin : some a ∈ (P.fifo.filter P.waiting).take (m + 1) := by
        refine List.mem_of_getElem? (i := (A.filter P.waiting).length) ?_
        rw [List.getElem?_take, if_pos hr, hfl, List.getElem?_append_right (Nat.le_refl _)]
        simp
      have : (P.wait m).Noti a := by
        refine ⟨u, hu, List.mem_append.mpr (.inr (List.mem_filterMap.mpr ⟨some a, hin, ?_⟩))⟩
        simp [hs, hid]
      exact ⟨hhead, .inl this⟩
    · have hlen := List.length_filter_le P.waiting A
      refine ⟨hhead, .inr ⟨(A.filter P.waiting).drop (m + 1), B.filter P.waiting, ?_, ?_⟩⟩
      · show (P.fifo.filter P.waiting).drop (m + 1) = _
        rw [hfl, List.drop_append_of_le_length (by omega)]
      · rw [List.length_drop]; omega

theorem tr_polled {P : PollSt} {l : List Addr} (hok : P.Ok l) {a : Addr} {x : Item} {n : Nat} (h : P.Tr a x n) (i : PTurn) :
    (P.polled i).Tr a x (n - 1) :=
  tr_wait (tr_arrivals (tr_rearmMain hok h) _) _

theorem tr_mainQ {P : PollSt} {a : Addr} {x : Item} {n : Nat} (h : P.Tr a x n) (q : List (Addr × Bytes)) :
    PollSt.Tr { P with mainQ := q } a x n := h

theorem tr_register {P : PollSt} {a b : Addr} {x : Item} {n : Nat} (h : P.Tr a x n) (hb : a ≠ b) : (P.register b).Tr a x n :=
  tr_of h (fun s q hs hq => ⟨s, q, by simp [PollSt.register, hb, hs], rfl, hq⟩) (fun _ _ hn => hn) (fun hn => near_same hn rfl)

theorem tr_asked {S} (v : Srv S) (L : LoopSt) (P : PollSt) (i : PTurn) {a : Addr} {x : Item} {n : Nat} (h : P.Tr a x n)
    (ha : a ∈ Spec.table v L i) : (v.asked L P i).Tr a x n := tr_arrivals (tr_keep h ha) _

/-- One iteration: `x` is taken, or it waits on and, if the main socket was polled, comes nearer. -/
theorem piter_tr {S} (v : Srv S) (L : LoopSt) (P : PollSt) (i : PTurn) (hok : P.Ok L.srv.addrs) (hnd : L.srv.addrs.Nodup) {a : Addr}
    {x : Item} {n : Nat} (h : P.Tr a x n) (ha : a ∈ Spec.table v L i) (hno : (a, x) ∉ (v.piter L P i).2.2.took) :
    (v.piter L P i).2.1.Tr a x n ∧
    ((v.piter L P i).2.2.out.read = none → (v.piter L P i).2.1.Tr a x (n - 1)) := by
  have hA := asked_ok v L P i hok
  have hS : (v.scanned L P i).st.Ok (Spec.table v L i) := ok_scan hA _
  have hT := tr_scan hA (tr_asked v L P i h ha) ((Spec.table v L i).drop L.nextRecv)
  cases hr : (v.scanned L P i).read with
  | some y =>
    obtain ⟨b, d⟩ := y
    obtain ⟨h1, -⟩ := (iter_scan v L (v.asked L P i) i none hnd).1 b d hr
    rw [piter_read v L P i b d hr] at hno ⊢
    simp only at hno ⊢
    refine ⟨hT.resolve_left hno, fun hx => ?_⟩
    rw [h1] at hx; cases hx
  | none =>
    rw [piter_none v L P i hr] at hno ⊢
    simp only at hno ⊢
    have hW := tr_polled hS (hT.resolve_left hno) i
    have hle : ∀ {Q : PollSt}, Q.Tr a x (n - 1) → Q.Tr a x n := by
      rintro Q ⟨h1, h2⟩
      refine ⟨h1, h2.imp_right ?_⟩
      rintro ⟨A, B, e, hl⟩
      exact ⟨A, B, e, by omega⟩
    cases ht : v.taken L P i with
    | none => exact ⟨hle (tr_mainQ hW _), fun _ => hW⟩
    | some b =>
      have hab : a ≠ b := by
        rintro rfl
        unfold Srv.taken at ht
        split at ht
        · split at ht
          · rename_i hx; cases ht; exact hx.2 ha
          · cases ht
        · cases ht
      have := tr_register (tr_mainQ hW (v.waited L P i).mainQ.tail) hab
      exact ⟨hle this, fun _ => this⟩

/-- One iteration: who is asked and notified gives away what it has. -/
theorem piter_visits {S} (v : Srv S) (L : LoopSt) (P : PollSt) (i : PTurn) (hnd : L.srv.addrs.Nodup) {a : Addr}
    {x : Item} (h : P.Tr a x 0) (k : Nat) (hk : (Spec.table v L i)[k]? = some a) (hle : L.nextRecv ≤ k)
    (hno : (a, x) ∉ (v.piter L P i).2.2.took) :
    (v.piter L P i).2.2.out.read ≠ none ∧ (v.piter L P i).1.nextRecv ≤ k ∧ (v.piter L P i).1.srv.addrs = Spec.table v L i := by
  have hT := tr_asked v L P i h (List.mem_of_getElem? hk)
  have hN : (v.asked L P i).Noti a := by
    rcases hT.2 with h1 | ⟨A, B, _, hl⟩
    · exact h1
    · omega
  have hn' : ((Spec.table v L i).drop L.nextRecv).Nodup :=
    (List.drop_sublist _ _).nodup ((check_sublist v L (i.turn (fun _ => none) none)).nodup hnd)
  have hk' : ((Spec.table v L i).drop L.nextRecv)[k - L.nextRecv]? = some a := by
    rw [List.getElem?_drop, show L.nextRecv + (k - L.nextRecv) = k from by omega]; exact hk
  have hv := scan_visits hT.1 hN _ hn' _ hk'
  have htook : (v.piter L P i).2.2.took = (v.scanned L P i).took := rfl
  rw [htook] at hno
  cases hr : (v.scanned L P i).read with
  | none => exact absurd (hv (.inl hr)) hno
  | some y =>
    obtain ⟨b, d⟩ := y
    obtain ⟨h1, h2, h3, -⟩ := (iter_scan v L (v.asked L P i) i none hnd).1 b d hr
    rw [piter_read v L P i b d hr]
    simp only
    rw [h1, h2, h3]
    refine ⟨by simp, ?_, rfl⟩
    apply Classical.byContradiction
    intro hlt
    exact hno (hv (.inr (by omega)))

theorem piter_polls {S} (v : Srv S) (L : LoopSt) (P : PollSt) (i : PTurn) (hnd : L.srv.addrs.Nodup)
    (h : (v.piter L P i).2.2.out.read = none) : (v.piter L P i).1.nextRecv = 0 := by
  cases hr : (v.scanned L P i).read with
  | some y =>
    obtain ⟨b, d⟩ := y
    obtain ⟨h1, -⟩ := (iter_scan v L (v.asked L P i) i none hnd).1 b d hr
    rw [piter_read v L P i b d hr] at h
    simp only at h
    rw [h1] at h; cases h
  | none =>
    obtain ⟨-, h2, -⟩ := (iter_scan v L (v.asked L P i) i (v.waited L P i).mainQ.head? hnd).2 hr
    rw [piter_none v L P i hr]
    exact h2

/-! ### Histories -/

theorem ploop_snoc {S} (v : Srv S) (t0 : Nat) (is : List PTurn) (i : PTurn) :
    v.ploop t0 (is ++ [i]) = ((v.piter (v.ploop t0 is).1 (v.ploop t0 is).2 i).1, (v.piter (v.ploop t0 is).1 (v.ploop t0 is).2 i).2.1) := by
  simp [Srv.ploop]

/-- The input of the loop of ServerLoop.lean the sockets amount to. -/
def Srv.turnAt {S} (v : Srv S) (X : LoopSt × PollSt) (i : PTurn) : Turn :=
  i.turn (v.asked X.1 X.2 i).ready (match (v.scanned X.1 X.2 i).read with
    | some _ => none
    | none => (v.waited X.1 X.2 i).mainQ.head?)

theorem piter_iter {S} (v : Srv S) (X : LoopSt × PollSt) (i : PTurn) :
    (v.piter X.1 X.2 i).1 = (v.iter X.1 (v.turnAt X i)).1 ∧ (v.piter X.1 X.2 i).2.2.out = (v.iter X.1 (v.turnAt X i)).2 := ⟨rfl, rfl⟩

/-- The inputs the sockets amount to. -/
def Srv.turns {S} (v : Srv S) (t0 : Nat) (is : List PTurn) : List Turn :=
  is.zipIdx.map fun x => v.turnAt (v.ploop t0 (is.take x.2)) x.1

theorem turns_length {S} (v : Srv S) (t0 : Nat) (is : List PTurn) : (v.turns t0 is).length = is.length := by simp [Srv.turns]

theorem turns_get {S} (v : Srv S) (t0 : Nat) (is : List PTurn) (k : Nat) :
    (v.turns t0 is)[k]? = is[k]?.map (v.turnAt (v.ploop t0 (is.take k))) := by
  simp [Srv.turns, Function.comp_def]

theorem turns_snoc {S} (v : Srv S) (t0 : Nat) (is : List PTurn) (i : PTurn) :
    v.turns t0 (is ++ [i]) = v.turns t0 is ++ [v.turnAt (v.ploop t0 is) i] := by
  apply List.ext_getElem?
  intro k
  rw [turns_get]
  by_cases hk : k < is.length
  · have h1 : (v.turns t0 is ++ [v.turnAt (v.ploop t0 is) i])[k]? = (v.turns t0 is)[k]? :=
      List.getElem?_append_left (by rw [turns_length]; exact hk)
    rw [h1, List.getElem?_append_left hk, turns_get, List.take_append_of_le_length (by omega)]
  · have h1 : (v.turns t0 is ++ [v.turnAt (v.ploop t0 is) i])[k]? = [v.turnAt (v.ploop t0 is) i][k - is.length]? := by
      rw [List.getElem?_append_right (by rw [turns_length]; omega), turns_length]
    rw [h1, List.getElem?_append_right (by omega)]
    by_cases he : k = is.length
    · subst he; simp
    · rw [List.getElem?_eq_none (by simp; omega), List.getElem?_eq_none (by simp; omega)]; rfl

/-- The server with its sockets does what the loop of ServerLoop.lean does, so all that is proved of the latter holds. -/
theorem ploop_loop {S} (v : Srv S) (t0 : Nat) (is : List PTurn) : (v.ploop t0 is).1 = v.loop t0 (v.turns t0 is) := by
  induction is using snoc_induction with
  | nil => rfl
  | snoc is i ih => rw [ploop_snoc, turns_snoc, loop_snoc, ← ih]; rfl

theorem turns_take {S} (v : Srv S) (t0 : Nat) (is : List PTurn) (k : Nat) : v.turns t0 (is.take k) = (v.turns t0 is).take k := by
  apply List.ext_getElem?
  intro j
  rw [turns_get, List.getElem?_take, List.getElem?_take, turns_get]
  by_cases hj : j < k
  · rw [if_pos hj, if_pos hj, List.take_take, Nat.min_eq_left (by omega)]
  · rw [if_neg hj, if_neg hj]; rfl

theorem pout_turn {S} (v : Srv S) (t0 : Nat) (is : List PTurn) (k : Nat) :
    (v.pout t0 is k).map (·.out) = v.turn t0 (v.turns t0 is) k := by
  unfold Srv.pout Srv.turn
  rw [turns_get]
  cases is[k]? with
  | none => rfl
  | some i =>
    simp only [Option.map_some]
    rw [(piter_iter v _ i).2, ploop_loop, turns_take]

theorem ploop_nodup {S} (v : Srv S) (t0 : Nat) (is : List PTurn) :
    (v.ploop t0 is).1.srv.addrs.Nodup ∧ (v.ploop t0 is).1.srv.addrs.length ≤ v.maxConn := by
  rw [ploop_loop, loop_is_history]
  exact ⟨(c22_table_bound v _).2, by simpa [SrvSt.addrs] using (c22_table_bound v _).1⟩

theorem ploop_take_succ {S} (v : Srv S) (t0 : Nat) (is : List PTurn) (k : Nat) (i : PTurn) (h : is[k]? = some i) :
    v.ploop t0 (is.take (k + 1)) = ((v.piter (v.ploop t0 (is.take k)).1 (v.ploop t0 (is.take k)).2 i).1,
      (v.piter (v.ploop t0 (is.take k)).1 (v.ploop t0 (is.take k)).2 i).2.1) := by
  rw [List.take_succ_eq_append_getElem (List.getElem?_eq_some_iff.mp h).1, (List.getElem?_eq_some_iff.mp h).2, ploop_snoc]

/-- Specification: the number of clients accepted in the first `n` iterations. -/
def Spec.accepts {S} (v : Srv S) (t0 : Nat) (is : List PTurn) : Nat → Nat
  | 0 => 0
  | n + 1 => Spec.accepts v t0 is n + (if ((v.pout t0 is n).bind (·.accepted)) = none then 0 else 1)

theorem accepts_mono {S} (v : Srv S) (t0 : Nat) (is : List PTurn) (m n : Nat) (h : m ≤ n) :
    Spec.accepts v t0 is m ≤ Spec.accepts v t0 is n := by
  induction n with
  | zero => rw [Nat.le_zero.mp h]; exact Nat.le_refl _
  | succ n ih =>
    by_cases e : m = n + 1
    · rw [e]; exact Nat.le_refl _
    · exact Nat.le_trans (ih (by omega)) (Nat.le_add_right _ _)

theorem ploop_ok {S} (v : Srv S) (t0 : Nat) (is : List PTurn) (k : Nat) (hk : k ≤ is.length)
    (ha : Spec.accepts v t0 is k < 2 ^ 32 - 1) :
    (v.ploop t0 (is.take k)).2.Ok (v.ploop t0 (is.take k)).1.srv.addrs ∧
    (v.ploop t0 (is.take k)).2.lastId = 1 + Spec.accepts v t0 is k := by
  induction k with
  | zero => exact ⟨ok_new, rfl⟩
  | succ k ih =>
    have hm := accepts_mono v t0 is k (k + 1) (by omega)
    obtain ⟨h1, h2⟩ := ih (by omega) (by omega)
    have hi : is[k]? = some is[k] := List.getElem?_eq_getElem (by omega)
    have hp : v.pout t0 is k = some (v.piter (v.ploop t0 (is.take k)).1 (v.ploop t0 (is.take k)).2 is[k]).2.2 := by
      simp [Srv.pout, hi]
    simp only [Spec.accepts, hp, Option.bind_some] at ha ⊢
    rw [ploop_take_succ v t0 is k _ hi]
    simp only
    have hs := piter_ok v _ _ is[k] h1 (ploop_nodup v t0 (is.take k)).1 (by
      intro hne
      rw [if_neg hne] at ha
      omega)
    exact ⟨hs.1, by rw [hs.2]; omega⟩

theorem nodup_length_le {α : Type} [DecidableEq α] {l m : List α} (h : l.Nodup) (hs : ∀ x ∈ l, x ∈ m) : l.length ≤ m.length := by
  induction l generalizing m with
  | nil => exact Nat.zero_le _
  | cons x l ih =>
    rw [List.nodup_cons] at h
    have := ih (m := m.erase x) h.2 (fun y hy => (List.mem_erase_of_ne (fun e => h.1 (by rw [← e]; exact hy))).mpr (hs y (List.mem_cons_of_mem _ hy)))
    rw [List.length_erase_of_mem (hs x (by simp))] at this
    have := List.length_pos_of_mem (hs x (by simp))
    simp only [List.length_cons]
    omega

/-- At a reachable state, whatever waits will be found. -/
theorem tr_start {P : PollSt} {l : List Addr} (h : P.Ok l) {a : Addr} {x : Item} (hh : P.Head a x) {n : Nat} (hn : l.length ≤ n) :
    P.Tr a x (n + 1) := by
  refine ⟨hh, ?_⟩
  obtain ⟨s, q, hs, hq⟩ := hh
  rcases h.cover a s hs with h1 | ⟨-, h2⟩
  · exact .inl ⟨s, hs, h1⟩
  · have hm := h2 (by simp [hq])
    obtain ⟨A, B, e⟩ := List.append_of_mem hm
    refine .inr ⟨A, B, e, ?_⟩
    have := nodup_length_le (m := none :: l.map some) h.nodup (by
      intro y hy
      cases y with
      | none => simp
      | some b => exact List.mem_cons_of_mem _ (List.mem_map_of_mem (h.fifo b hy)))
    rw [e] at this
    simp only [List.length_append, List.length_cons, List.length_map] at this
    omega

/-- Specification: iteration `k` polls the main socket. -/
def Spec.polls {S} (v : Srv S) (t0 : Nat) (is : List PTurn) (k : Nat) : Prop := ∃ o, v.pout t0 is k = some o ∧ o.out.read = none

theorem polls_within {S} (v : Srv S) (t0 : Nat) (is : List PTurn) (s : Nat) (h : s + v.maxConn < is.length) :
    ∃ k, s ≤ k ∧ k ≤ s + v.maxConn ∧ Spec.polls v t0 is k := by
  obtain ⟨k, o, h1, h2, h3, h4⟩ := c47_main_socket_polled v t0 (v.turns t0 is) s (by rw [turns_length]; exact h)
  rw [← pout_turn] at h3
  obtain ⟨q, hq, rfl⟩ := Option.map_eq_some_iff.mp h3
  refine ⟨k, h1, h2, q, hq, ?_⟩
  unfold Srv.pout at hq
  obtain ⟨i, -, rfl⟩ := Option.map_eq_some_iff.mp hq
  rw [(piter_iter v _ i).2] at h4 ⊢
  cases hr : (v.iter (v.ploop t0 (is.take k)).1 (v.turnAt (v.ploop t0 (is.take k)) i)).2.read with
  | none => rfl
  | some a => exact absurd (iter_read v _ _ a hr).1 h4

/-- Specification: does iteration `k` drop a client from the table? -/
def Spec.dropsAt {S} (v : Srv S) (t0 : Nat) (is : List PTurn) (k : Nat) : Bool := match is[k]? with
  | none => false
  | some i => decide (Spec.table v (v.ploop t0 (is.take k)).1 i ≠ (v.ploop t0 (is.take k)).1.srv.addrs)

/-- Specification: how many of the `n` iterations from `s` on drop clients. -/
def Spec.drops {S} (v : Srv S) (t0 : Nat) (is : List PTurn) (s : Nat) : Nat → Nat
  | 0 => 0
  | n + 1 => Spec.drops v t0 is s n + (if Spec.dropsAt v t0 is (s + n) then 1 else 0)

theorem drops_add {S} (v : Srv S) (t0 : Nat) (is : List PTurn) (s m n : Nat) :
    Spec.drops v t0 is s (m + n) = Spec.drops v t0 is s m + Spec.drops v t0 is (s + m) n := by
  induction n with
  | zero => rfl
  | succ n ih =>
    rw [show m + (n + 1) = (m + n) + 1 from rfl]
    simp only [Spec.drops, ih]
    rw [show s + (m + n) = s + m + n from by omega]
    omega

theorem drops_zero {S} (v : Srv S) (t0 : Nat) (is : List PTurn) (s n : Nat) (h : Spec.drops v t0 is s n = 0) (k : Nat) (h1 : s ≤ k)
    (h2 : k < s + n) : Spec.dropsAt v t0 is k = false := by
  induction n with
  | zero => omega
  | succ n ih =>
    simp only [Spec.drops] at h
    by_cases hk : k = s + n
    · rw [hk]
      cases hd : Spec.dropsAt v t0 is (s + n) with
      | false => rfl
      | true => rw [hd] at h; simp at h
    · exact ih (by omega) (by omega)

/-- Specification: what iteration `k` takes out of the clients' sockets. -/
def Spec.took {S} (v : Srv S) (t0 : Nat) (is : List PTurn) (k : Nat) : List (Addr × Item) := ((v.pout t0 is k).map (·.took)).getD []

section Window
variable {S : SigScheme} (v : Srv S) (t0 : Nat) (is : List PTurn) (a : Addr) (x : Item) (s e : Nat)

/-- In all iterations of the window the client is in the table, and `x` is not taken. -/
def Quiet : Prop := ∀ k, s ≤ k → k < e → (∀ i, is[k]? = some i → a ∈ Spec.table v (v.ploop t0 (is.take k)).1 i) ∧
  (a, x) ∉ Spec.took v t0 is k

variable {v t0 is a x s e}

theorem quiet_step (hq : Quiet v t0 is a x s e) (he : e ≤ is.length) (hacc : Spec.accepts v t0 is is.length < 2 ^ 32 - 1) {k n : Nat}
    (h1 : s ≤ k) (h2 : k < e) (h : (v.ploop t0 (is.take k)).2.Tr a x n) :
    (v.ploop t0 (is.take (k + 1))).2.Tr a x n ∧ (Spec.polls v t0 is k → (v.ploop t0 (is.take (k + 1))).2.Tr a x (n - 1)) := by
  have hi : is[k]? = some is[k] := List.getElem?_eq_getElem (by omega)
  obtain ⟨hq1, hq2⟩ := hq k h1 h2
  have hp : v.pout t0 is k = some (v.piter (v.ploop t0 (is.take k)).1 (v.ploop t0 (is.take k)).2 is[k]).2.2 := by
    simp [Srv.pout, hi]
  have hok := (ploop_ok v t0 is k (by omega) (Nat.lt_of_le_of_lt (accepts_mono v t0 is k is.length (by omega)) hacc)).1
  have hs := piter_tr v _ _ is[k] hok (ploop_nodup v t0 _).1 h (hq1 _ hi) (by simpa [Spec.took, hp] using hq2)
  rw [ploop_take_succ v t0 is k _ hi]
  refine ⟨hs.1, ?_⟩
  rintro ⟨o, ho, hr⟩
  rw [hp] at ho; cases ho
  exact hs.2 hr

theorem quiet_keep (hq : Quiet v t0 is a x s e) (he : e ≤ is.length) (hacc : Spec.accepts v t0 is is.length < 2 ^ 32 - 1) {k n : Nat}
    (h1 : s ≤ k) (h : (v.ploop t0 (is.take k)).2.Tr a x n) (d : Nat) (h2 : k + d ≤ e) : (v.ploop t0 (is.take (k + d))).2.Tr a x n := by
  induction d with
  | zero => exact h
  | succ d ih => exact (quiet_step hq he hacc (by omega) (by omega) (ih (by omega))).1

/-- Enough polls: the server will ask the client. -/
theorem quiet_notified (hq : Quiet v t0 is a x s e) (he : e ≤ is.length) (hacc : Spec.accepts v t0 is is.length < 2 ^ 32 - 1) (n : Nat)
    (hT : (v.ploop t0 (is.take s)).2.Tr a x n) (hl : s + n * (v.maxConn + 1) ≤ e) :
    ∃ k, s ≤ k ∧ k ≤ s + n * (v.maxConn + 1) ∧ (v.ploop t0 (is.take k)).2.Tr a x 0 := by
  suffices h : ∀ j, j ≤ n → ∃ k, s ≤ k ∧ k ≤ s + j * (v.maxConn + 1) ∧ (v.ploop t0 (is.take k)).2.Tr a x (n - j) by
    obtain ⟨k, h1, h2, h3⟩ := h n (Nat.le_refl _)
    exact ⟨k, h1, h2, by simpa using h3⟩
  intro j
  induction j with
  | zero => exact fun _ => ⟨s, Nat.le_refl _, by omega, hT⟩
  | succ j ih =>
    intro hj
    obtain ⟨k, h1, h2, h3⟩ := ih (by omega)
    have hm : (j + 1) * (v.maxConn + 1) ≤ n * (v.maxConn + 1) := Nat.mul_le_mul_right _ hj
    rw [Nat.succ_mul] at hm
    obtain ⟨p, p1, p2, p3⟩ := polls_within v t0 is k (by omega)
    refine ⟨p + 1, by omega, by rw [Nat.succ_mul]; omega, ?_⟩
    have := quiet_keep hq he hacc h1 h3 (p - k) (by omega)
    rw [show k + (p - k) = p from by omega] at this
    have := (quiet_step hq he hacc (by omega) (by omega) this).2 p3
    rw [show n - (j + 1) = n - j - 1 from by omega]
    exact this

/-- After a poll the pointer is not beyond the client, until the next client is dropped. -/
theorem quiet_pointer (hq : Quiet v t0 is a x s e) (he : e ≤ is.length) {p : Nat} (hp : Spec.polls v t0 is p) (h1 : s ≤ p)
    (d : Nat) (h2 : p + 1 + d ≤ e) (hT : ∀ k, p < k → k ≤ p + d → (v.ploop t0 (is.take k)).2.Tr a x 0)
    (hd : ∀ k, p < k → k ≤ p + d → Spec.dropsAt v t0 is k = false) :
    ∀ q, (v.ploop t0 (is.take (p + 1 + d))).1.srv.addrs[q]? = some a → (v.ploop t0 (is.take (p + 1 + d))).1.nextRecv ≤ q := by
  induction d with
  | zero =>
    intro q _
    obtain ⟨o, ho, hr⟩ := hp
    have hi : is[p]? = some is[p] := List.getElem?_eq_getElem (by omega)
    simp only [Srv.pout, hi, Option.map_some, Option.some.injEq] at ho
    subst ho
    rw [Nat.add_zero, ploop_take_succ v t0 is p _ hi]
    simp only
    rw [piter_polls v _ _ _ (ploop_nodup v t0 _).1 hr]
    omega
  | succ d ih =>
    have ih := ih (by omega) (fun k h3 h4 => hT k h3 (by omega)) (fun k h3 h4 => hd k h3 (by omega))
    have hi : is[p + 1 + d]? = some is[p + 1 + d] := List.getElem?_eq_getElem (by omega)
    have hdr := hd (p + 1 + d) (by omega) (by omega)
    simp only [Spec.dropsAt, hi, ne_eq, decide_not, Bool.not_eq_false', decide_eq_true_eq] at hdr
    obtain ⟨hq1, hq2⟩ := hq (p + 1 + d) (by omega) (by omega)
    obtain ⟨j, hj⟩ := List.getElem?_of_mem (hq1 _ hi)
    have hle := ih j (by rw [← hdr]; exact hj)
    have hvis := piter_visits v _ _ is[p + 1 + d] (ploop_nodup v t0 _).1 (hT (p + 1 + d) (by omega) (by omega)) j hj hle
      (by simpa [Spec.took, Srv.pout, hi] using hq2)
    intro q hq'
    rw [show p + 1 + (d + 1) = (p + 1 + d) + 1 from by omega, ploop_take_succ v t0 is _ _ hi] at hq' ⊢
    simp only at hq' ⊢
    rw [hvis.2.2] at hq'
    have hnd : (Spec.table v (v.ploop t0 (is.take (p + 1 + d))).1 is[p + 1 + d]).Nodup :=
      (check_sublist v _ _).nodup (ploop_nodup v t0 _).1
    have : q = j := by
      obtain ⟨g1, g2⟩ := List.getElem?_eq_some_iff.mp hq'
      obtain ⟨g3, g4⟩ := List.getElem?_eq_some_iff.mp hj
      exact (List.getElem_inj hnd).mp (g2.trans g4.symm)
    rw [this]
    exact hvis.2.1

theorem quiet_round_aux {p p2 : Nat} (hq : Quiet v t0 is a x s e) (he : e ≤ is.length)
    (hacc : Spec.accepts v t0 is is.length < 2 ^ 32 - 1) (hp : Spec.polls v t0 is p) (h1 : s ≤ p) (g1 : p + 1 ≤ p2) (g2 : p2 < e)
    (g3 : Spec.polls v t0 is p2) (hT : (v.ploop t0 (is.take (p + 1))).2.Tr a x 0)
    (hd : ∀ k, p < k → k ≤ p2 → Spec.dropsAt v t0 is k = false) : False := by
  have hTk : ∀ k, p < k → k ≤ p2 → (v.ploop t0 (is.take k)).2.Tr a x 0 := by
    intro k k1 k2
    have := quiet_keep hq he hacc (by omega) hT (k - (p + 1)) (by omega)
    rwa [show p + 1 + (k - (p + 1)) = k from by omega] at this
  have hptr := quiet_pointer hq he hp h1 (p2 - (p + 1)) (by omega) (fun k k1 k2 => hTk k k1 (by omega))
    (fun k k1 k2 => hd k k1 (by omega))
  rw [show p + 1 + (p2 - (p + 1)) = p2 from by omega] at hptr
  have hi : is[p2]? = some is[p2] := List.getElem?_eq_getElem (by omega)
  have hdr := hd p2 (by omega) (Nat.le_refl _)
  simp only [Spec.dropsAt, hi, ne_eq, decide_not, Bool.not_eq_false', decide_eq_true_eq] at hdr
  obtain ⟨hq1, hq2⟩ := hq p2 (by omega) g2
  obtain ⟨j, hj⟩ := List.getElem?_of_mem (hq1 _ hi)
  have hle := hptr j (by rw [← hdr]; exact hj)
  have hvis := piter_visits v _ _ is[p2] (ploop_nodup v t0 _).1 (hTk p2 (by omega) (Nat.le_refl _)) j hj hle
    (by simpa [Spec.took, Srv.pout, hi] using hq2)
  obtain ⟨o, ho, hr⟩ := g3
  simp only [Srv.pout, hi, Option.map_some, Option.some.injEq] at ho
  subst ho
  exact hvis.1 hr

/-- Rounds in which nobody is dropped reach the client. -/
theorem quiet_round (D : Nat) (hq : Quiet v t0 is a x s e) (he : e ≤ is.length) (hacc : Spec.accepts v t0 is is.length < 2 ^ 32 - 1)
    (p : Nat) (hp : Spec.polls v t0 is p) (h1 : s ≤ p) (h2 : p + 1 + (D + 1) * (v.maxConn + 1) ≤ e)
    (hT : (v.ploop t0 (is.take (p + 1))).2.Tr a x 0) (hd : Spec.drops v t0 is (p + 1) ((D + 1) * (v.maxConn + 1)) ≤ D) : False := by
  induction D generalizing p with
  | zero =>
    rw [Nat.zero_add, Nat.one_mul] at h2 hd
    obtain ⟨p2, g1, g2, g3⟩ := polls_within v t0 is (p + 1) (by omega)
    exact quiet_round_aux hq he hacc hp h1 g1 (by omega) g3 hT 
      (fun k k1 k2 => drops_zero v t0 is (p + 1) (v.maxConn + 1) (by omega) k (by omega) (by omega))
  | succ D ih =>
    rw [Nat.succ_mul] at h2 hd
    have hm : (D + 1) * (v.maxConn + 1) ≥ v.maxConn + 1 := Nat.le_mul_of_pos_left _ (by omega)
    obtain ⟨p2, g1, g2, g3⟩ := polls_within v t0 is (p + 1) (by omega)
    by_cases h0 : Spec.drops v t0 is (p + 1) (p2 - p) = 0
    · exact quiet_round_aux hq he hacc hp h1 g1 (by omega) g3 hT 
        (fun k k1 k2 => drops_zero v t0 is _ _ h0 k (by omega) (by omega))
    · refine ih p2 g3 (by omega) (by omega) ?_ ?_
      · have := quiet_keep hq he hacc (by omega) hT (p2 - p) (by omega)
        rw [show p + 1 + (p2 - p) = p2 + 1 from by omega] at this
        exact this
      · have hsplit := drops_add v t0 is (p + 1) (p2 - p) ((D + 1) * (v.maxConn + 1) + (v.maxConn + 1) - (p2 - p))
        rw [show p2 - p + ((D + 1) * (v.maxConn + 1) + (v.maxConn + 1) - (p2 - p)) = (D + 1) * (v.maxConn + 1) + (v.maxConn + 1) from by
          omega, show p + 1 + (p2 - p) = p2 + 1 from by omega] at hsplit
        have hsplit2 := drops_add v t0 is (p2 + 1) ((D + 1) * (v.maxConn + 1)) (v.maxConn + 1 - (p2 - p))
        rw [show (D + 1) * (v.maxConn + 1) + (v.maxConn + 1 - (p2 - p)) = (D + 1) * (v.maxConn + 1) + (v.maxConn + 1) - (p2 - p) from by
          omega] at hsplit2
        omega

end Window

/-! ### C67 -/

theorem drops_sub {S} (v : Srv S) (t0 : Nat) (is : List PTurn) (s W p n : Nat) (h1 : s ≤ p) (h2 : p + n ≤ s + W) :
    Spec.drops v t0 is p n ≤ Spec.drops v t0 is s W := by
  have e1 := drops_add v t0 is s (p - s) (W - (p - s))
  have e2 := drops_add v t0 is p n (W - (p - s) - n)
  rw [show p - s + (W - (p - s)) = W from by omega, show s + (p - s) = p from by omega] at e1
  rw [show n + (W - (p - s) - n) = W - (p - s) from by omega] at e2
  omega

/-- **C67**: take any history of the single threaded server with its sockets, in which fewer than 2^32 - 1 clients were accepted. If
after `s` iterations `x` (a datagram or an error) is the next thing waiting at the socket of client `a`, then the server takes it
within `(max_connections + 3 + D) * (max_connections + 1)` iterations, if the client is not dropped before and at most `D` of these
iterations drop other clients (they do so at most every two seconds). This holds whatever the other clients send and whatever
order the kernel reports the sockets in. -/
theorem c67_every_datagram_read {S} (v : Srv S) (t0 : Nat) (is : List PTurn) (s D : Nat) (a : Addr) (u : PSock) (x : Item) (q : List Item)
    (hacc : Spec.accepts v t0 is is.length < 2 ^ 32 - 1)
    (hu : (v.ploop t0 (is.take s)).2.sock a = some u) (hx : u.queue = x :: q)
    (hl : s + (v.maxConn + 3 + D) * (v.maxConn + 1) ≤ is.length)
    (hstay : ∀ k i, s ≤ k → k < s + (v.maxConn + 3 + D) * (v.maxConn + 1) → is[k]? = some i →
      a ∈ Spec.table v (v.ploop t0 (is.take k)).1 i)
    (hdrop : Spec.drops v t0 is s ((v.maxConn + 3 + D) * (v.maxConn + 1)) ≤ D) :
    ∃ k, s ≤ k ∧ k < s + (v.maxConn + 3 + D) * (v.maxConn + 1) ∧ (a, x) ∈ Spec.took v t0 is k := by
  apply Classical.byContradiction
  intro hno
  have hq : Quiet v t0 is a x s (s + (v.maxConn + 3 + D) * (v.maxConn + 1)) := by
    intro k h1 h2
    exact ⟨fun i hi => hstay k i h1 h2 hi, fun h => hno ⟨k, h1, h2, h⟩⟩
  have hW : (v.maxConn + 3 + D) * (v.maxConn + 1) =
      (v.maxConn + 1) * (v.maxConn + 1) + (v.maxConn + 1) + (D + 1) * (v.maxConn + 1) := by
    rw [← Nat.succ_mul, ← Nat.add_mul]
    congr 1
    omega
  have hm : (D + 1) * (v.maxConn + 1) ≥ v.maxConn + 1 := Nat.le_mul_of_pos_left _ (by omega)
  have hok := (ploop_ok v t0 is s (by omega) (Nat.lt_of_le_of_lt (accepts_mono v t0 is s is.length (by omega)) hacc)).1
  have hT := tr_start hok ⟨u, q, hu, hx⟩ (ploop_nodup v t0 (is.take s)).2
  obtain ⟨k, h1, h2, h3⟩ := quiet_notified hq hl hacc (v.maxConn + 1) hT (by omega)
  obtain ⟨p, p1, p2, p3⟩ := polls_within v t0 is k (by omega)
  have hTp := quiet_keep hq hl hacc h1 h3 (p + 1 - k) (by omega)
  rw [show k + (p + 1 - k) = p + 1 from by omega] at hTp
  refine quiet_round D hq hl hacc p p3 (by omega) (by omega) hTp ?_
  exact Nat.le_trans (drops_sub v t0 is s _ (p + 1) _ (by omega) (by omega)) hdrop

theorem scan_took_data (P : PollSt) (r : List Addr) (a : Addr) (d : Bytes) (h : (a, Item.data d) ∈ (P.scan r).took) :
    (P.scan r).read = some (a, d) := by
  induction r generalizing P with
  | nil => cases h
  | cons b r ih =>
    simp only [PollSt.scan] at h ⊢
    cases hs : P.sock b with
    | none => rw [hs] at h; exact ih P (by simpa using h)
    | some s =>
      rw [hs] at h
      simp only at h ⊢
      by_cases hn : s.id ∈ P.notified
      · rw [if_pos hn] at h ⊢
        cases hq : s.queue with
        | nil => rw [hq] at h; exact ih P (by simpa using h)
        | cons y q =>
          rw [hq] at h
          cases y with
          | err => exact ih _ (by simpa using h)
          | data d' => simp at h; obtain ⟨rfl, rfl⟩ := h; rfl
      · rw [if_neg hn] at h ⊢; exact ih P (by simpa using h)

/-- **C67**, taken means handled: the iteration which takes a datagram from a client's socket hands it to this client's transfer. -/
theorem c67_taken_is_handled {S} (v : Srv S) (t0 : Nat) (is : List PTurn) (k : Nat) (o : POut) (a : Addr) (d : Bytes)
    (ho : v.pout t0 is k = some o) (h : (a, Item.data d) ∈ o.took) : ∃ t io, SrvEv.client t a d io ∈ o.out.evs := by
  unfold Srv.pout at ho
  obtain ⟨i, -, rfl⟩ := Option.map_eq_some_iff.mp ho
  have hr := scan_took_data _ _ a d h
  obtain ⟨-, -, -, h4⟩ := (iter_scan v (v.ploop t0 (is.take k)).1 (v.asked (v.ploop t0 (is.take k)).1 (v.ploop t0 (is.take k)).2 i) i none
    (ploop_nodup v t0 _).1).1 a d hr
  refine ⟨i.tr, i.rio, ?_⟩
  rw [piter_read v _ _ i a d hr]
  exact h4

theorem arrive_mainQ (P : PollSt) (x : Arrival) : ∃ B, (P.arrive x).mainQ = P.mainQ ++ B := by
  cases x with
  | main a d => exact ⟨[(a, d)], rfl⟩
  | client a x => simp only [PollSt.arrive]; split <;> exact ⟨[], by simp⟩

theorem arrivals_mainQ (P : PollSt) (xs : List Arrival) : ∃ B, (xs.foldl PollSt.arrive P).mainQ = P.mainQ ++ B := by
  induction xs generalizing P with
  | nil => exact ⟨[], by simp⟩
  | cons x xs ih =>
    obtain ⟨B, h1⟩ := arrive_mainQ P x
    obtain ⟨C, h2⟩ := ih (P.arrive x)
    exact ⟨B ++ C, by rw [List.foldl_cons, h2, h1, List.append_assoc]⟩

theorem scan_mainQ (P : PollSt) (r : List Addr) : (P.scan r).st.mainQ = P.mainQ := by
  induction r generalizing P with
  | nil => rfl
  | cons a r ih =>
    simp only [PollSt.scan]
    split
    · exact ih P
    · split
      · split
        · exact ih P
        · exact ih (P.pop a)
        · simp only [PollSt.rearm]; split <;> rfl
      · exact ih P

theorem scanned_mainQ {S} (v : Srv S) (L : LoopSt) (P : PollSt) (i : PTurn) : ∃ B, (v.scanned L P i).st.mainQ = P.mainQ ++ B := by
  unfold Srv.scanned Srv.asked
  rw [scan_mainQ]
  exact arrivals_mainQ (P.keep _) _

theorem waited_mainQ {S} (v : Srv S) (L : LoopSt) (P : PollSt) (i : PTurn) : ∃ B, (v.waited L P i).mainQ = P.mainQ ++ B := by
  obtain ⟨B, h1⟩ := scanned_mainQ v L P i
  obtain ⟨C, h2⟩ := arrivals_mainQ (v.scanned L P i).st.rearmMain i.during
  refine ⟨B ++ C, ?_⟩
  rw [← List.append_assoc, ← h1]
  exact h2

/-- What an iteration does to the queue of the main socket. -/
theorem piter_mainQ {S} (v : Srv S) (L : LoopSt) (P : PollSt) (i : PTurn) (hnd : L.srv.addrs.Nodup) :
    ((v.piter L P i).2.2.out.read ≠ none → ∃ B, (v.piter L P i).2.1.mainQ = P.mainQ ++ B) ∧
    ((v.piter L P i).2.2.out.read = none → ∃ B, (v.piter L P i).2.2.mainTook = (P.mainQ ++ B).head? ∧
      (v.piter L P i).2.1.mainQ = (P.mainQ ++ B).tail) := by
  cases hr : (v.scanned L P i).read with
  | some y =>
    obtain ⟨b, d⟩ := y
    obtain ⟨h1, -⟩ := (iter_scan v L (v.asked L P i) i none hnd).1 b d hr
    rw [piter_read v L P i b d hr]
    refine ⟨fun _ => scanned_mainQ v L P i, fun h => ?_⟩
    simp only at h
    rw [h1] at h; cases h
  | none =>
    obtain ⟨h1, -⟩ := (iter_scan v L (v.asked L P i) i (v.waited L P i).mainQ.head? hnd).2 hr
    rw [piter_none v L P i hr]
    refine ⟨fun h => absurd h1 h, fun _ => ?_⟩
    obtain ⟨B, hB⟩ := waited_mainQ v L P i
    refine ⟨B, by rw [← hB], ?_⟩
    rw [← hB]
    simp only
    split <;> rfl

/-- **C67**, requests: a datagram with `n` others before it at the server's main socket is taken within `(n + 1) * (max_connections
+ 1)` iterations, however busy the clients' sockets are. -/
theorem c67_every_request_read {S} (v : Srv S) (t0 : Nat) (is : List PTurn) (s : Nat) (A B : List (Addr × Bytes)) (y : Addr × Bytes)
    (h : (v.ploop t0 (is.take s)).2.mainQ = A ++ y :: B) (hl : s + (A.length + 1) * (v.maxConn + 1) ≤ is.length) :
    ∃ k o, s ≤ k ∧ k < s + (A.length + 1) * (v.maxConn + 1) ∧ v.pout t0 is k = some o ∧ o.mainTook = some y := by
  have keep : ∀ (C D : List (Addr × Bytes)) (k d : Nat), (v.ploop t0 (is.take k)).2.mainQ = C ++ y :: D → k + d ≤ is.length →
      (∀ j, k ≤ j → j < k + d → ¬ Spec.polls v t0 is j) → ∃ D', (v.ploop t0 (is.take (k + d))).2.mainQ = C ++ y :: D' := by
    intro C D k d hk hd hp
    induction d with
    | zero => exact ⟨D, hk⟩
    | succ d ih =>
      obtain ⟨D', h1⟩ := ih (by omega) (fun j j1 j2 => hp j j1 (by omega))
      have hi : is[k + d]? = some is[k + d] := List.getElem?_eq_getElem (by omega)
      obtain ⟨E, hE⟩ := (piter_mainQ v (v.ploop t0 (is.take (k + d))).1 (v.ploop t0 (is.take (k + d))).2 is[k + d] (ploop_nodup v t0 _).1).1
        (fun e => hp (k + d) (by omega) (by omega) ⟨_, by simp only [Srv.pout, hi, Option.map_some], e⟩)
      refine ⟨D' ++ E, ?_⟩
      rw [show k + (d + 1) = (k + d) + 1 from by omega, ploop_take_succ v t0 is _ _ hi]
      simp only
      rw [hE, h1]
      simp
  -- the first poll at or after `k`
  have first : ∀ k, k + v.maxConn < is.length → ∃ p, k ≤ p ∧ p ≤ k + v.maxConn ∧ Spec.polls v t0 is p ∧
      ∀ j, k ≤ j → j < p → ¬ Spec.polls v t0 is j := by
    intro k hk
    obtain ⟨p, p1, p2, p3⟩ := polls_within v t0 is k hk
    have : ∀ n, ∀ p, p ≤ k + n → k ≤ p → Spec.polls v t0 is p → ∃ p', k ≤ p' ∧ p' ≤ p ∧ Spec.polls v t0 is p' ∧
        ∀ j, k ≤ j → j < p' → ¬ Spec.polls v t0 is j := by
      intro n
      induction n with
      | zero => intro p g1 g2 g3; exact ⟨p, g2, Nat.le_refl _, g3, fun j j1 j2 => by omega⟩
      | succ n ih =>
        intro p g1 g2 g3
        by_cases hex : ∃ j, k ≤ j ∧ j < p ∧ Spec.polls v t0 is j
        · obtain ⟨j, j1, j2, j3⟩ := hex
          obtain ⟨p', q1, q2, q3, q4⟩ := ih j (by omega) j1 j3
          exact ⟨p', q1, by omega, q3, q4⟩
        · exact ⟨p, g2, Nat.le_refl _, g3, fun j j1 j2 j3 => hex ⟨j, j1, j2, j3⟩⟩
    obtain ⟨p', q1, q2, q3, q4⟩ := this (p - k) p (by omega) p1 p3
    exact ⟨p', q1, by omega, q3, q4⟩
  induction A generalizing s B with
  | nil =>
    simp only [List.length_nil, Nat.zero_add, Nat.one_mul] at hl ⊢
    obtain ⟨p, p1, p2, p3, p4⟩ := first s (by omega)
    obtain ⟨D', hD⟩ := keep [] B s (p - s) h (by omega) (fun j j1 j2 => p4 j j1 (by omega))
    rw [show s + (p - s) = p from by omega] at hD
    obtain ⟨o, ho, hr⟩ := p3
    have hi : is[p]? = some is[p] := List.getElem?_eq_getElem (by omega)
    have ho' := ho
    simp only [Srv.pout, hi, Option.map_some, Option.some.injEq] at ho'
    subst ho'
    obtain ⟨E, hE, -⟩ := (piter_mainQ v (v.ploop t0 (is.take p)).1 (v.ploop t0 (is.take p)).2 is[p] (ploop_nodup v t0 _).1).2 hr
    exact ⟨p, _, p1, by omega, ho, by rw [hE, hD]; rfl⟩
  | cons z A ih =>
    simp only [List.length_cons] at hl ⊢
    rw [Nat.succ_mul] at hl ⊢
    obtain ⟨p, p1, p2, p3, p4⟩ := first s (by omega)
    obtain ⟨D', hD⟩ := keep (z :: A) B s (p - s) h (by omega) (fun j j1 j2 => p4 j j1 (by omega))
    rw [show s + (p - s) = p from by omega] at hD
    obtain ⟨o, ho, hr⟩ := p3
    have hi : is[p]? = some is[p] := List.getElem?_eq_getElem (by omega)
    simp only [Srv.pout, hi, Option.map_some, Option.some.injEq] at ho
    subst ho
    obtain ⟨E, -, hE⟩ := (piter_mainQ v (v.ploop t0 (is.take p)).1 (v.ploop t0 (is.take p)).2 is[p] (ploop_nodup v t0 _).1).2 hr
    have hnext : (v.ploop t0 (is.take (p + 1))).2.mainQ = A ++ y :: (D' ++ E) := by
      rw [ploop_take_succ v t0 is _ _ hi]
      simp only
      rw [hE, hD]
      simp
    obtain ⟨k, o, k1, k2, k3, k4⟩ := ih (p + 1) (D' ++ E) hnext (by omega)
    exact ⟨k, o, by omega, by omega, k3, k4⟩

/-- **C67**, a request taken is handled: it comes from a client in the table, or goes through the checks for new clients. -/
theorem c67_request_is_handled {S} (v : Srv S) (t0 : Nat) (is : List PTurn) (k : Nat) (o : POut) (i : PTurn) (b : Addr) (d : Bytes)
    (hi : is[k]? = some i) (ho : v.pout t0 is k = some o) (h : o.mainTook = some (b, d)) :
    b ∈ Spec.table v (v.ploop t0 (is.take k)).1 i ∨ SrvEv.main i.tr b d i.nio ∈ o.out.evs := by
  simp only [Srv.pout, hi, Option.map_some, Option.some.injEq] at ho
  subst ho
  cases hr : (v.scanned (v.ploop t0 (is.take k)).1 (v.ploop t0 (is.take k)).2 i).read with
  | some y =>
    obtain ⟨c, e⟩ := y
    rw [piter_read v _ _ i c e hr] at h
    cases h
  | none =>
    obtain ⟨-, -, -, h4⟩ := (iter_scan v (v.ploop t0 (is.take k)).1 (v.asked (v.ploop t0 (is.take k)).1 (v.ploop t0 (is.take k)).2 i) i
      (v.waited (v.ploop t0 (is.take k)).1 (v.ploop t0 (is.take k)).2 i).mainQ.head? (ploop_nodup v t0 _).1).2 hr
    rw [piter_none v _ _ i hr] at h ⊢
    exact (h4 b d h).1

end Tftp

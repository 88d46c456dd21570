import Verif.PollLive
/-
C67: what the server takes from a client's socket is what arrived there, each thing once and in order. The witness that numbers of
sockets are used again after 2^32 - 1 accepted clients, and what happens then.
-/
namespace Tftp

/-- What waits at the socket of `a`. -/
def PollSt.q (P : PollSt) (a : Addr) : Option (List Item) := (P.sock a).map (·.queue)

/-- Specification: what arrivals bring to the socket of `a`. -/
def Spec.itemsFor (a : Addr) (l : List Arrival) : List Item := l.filterMap fun
  | .client b x => if b = a then some x else none
  | .main _ _ => none

/-- Specification: the things of `a` in a list. -/
def Spec.ofClient (a : Addr) (l : List (Addr × Item)) : List Item := l.filterMap fun x => if x.1 = a then some x.2 else none

theorem q_arrive {P : PollSt} {a : Addr} {q : List Item} (h : P.q a = some q) (x : Arrival) :
    (P.arrive x).q a = some (q ++ Spec.itemsFor a [x]) := by
  cases x with
  | main b d => simpa [Spec.itemsFor, PollSt.arrive, PollSt.q] using h
  | client b x =>
    obtain ⟨s, hs, rfl⟩ := Option.map_eq_some_iff.mp h
    simp only [PollSt.arrive]
    by_cases hb : b = a
    · subst hb
      rw [hs]
      simp [PollSt.q, Spec.itemsFor]
    · have : Spec.itemsFor a [Arrival.client b x] = [] := by simp [Spec.itemsFor, hb]
      rw [this, List.append_nil]
      split
      · exact h
      · simp [PollSt.q, Ne.symm hb, hs]

theorem q_arrivals {P : PollSt} {a : Addr} {q : List Item} (h : P.q a = some q) (xs : List Arrival) :
    (xs.foldl PollSt.arrive P).q a = some (q ++ Spec.itemsFor a xs) := by
  induction xs generalizing P q with
  | nil => simpa [Spec.itemsFor] using h
  | cons x xs ih =>
    rw [List.foldl_cons, ih (q_arrive h x), List.append_assoc]
    congr 2
    simp only [Spec.itemsFor]
    rw [← List.filterMap_append]
    rfl

theorem q_rearm (P : PollSt) (a b : Addr) : (P.rearm b).q a = P.q a := by
  unfold PollSt.rearm
  split
  · rfl
  · rename_i s hs
    by_cases hb : a = b
    · subst hb; simp [PollSt.q, hs]
    · simp [PollSt.q, hb]

theorem q_wait (P : PollSt) (a : Addr) (n : Nat) : (P.wait n).q a = P.q a := by
  simp only [PollSt.q, PollSt.wait]
  cases P.sock a with
  | none => rfl
  | some s => simp only [Option.map_some]; split <;> rfl

theorem q_scan {P : PollSt} {a : Addr} {q : List Item} (h : P.q a = some q) (r : List Addr) :
    ∃ q', (P.scan r).st.q a = some q' ∧ q = Spec.ofClient a (P.scan r).took ++ q' := by
  induction r generalizing P q with
  | nil => exact ⟨q, h, rfl⟩
  | cons b r ih =>
    simp only [PollSt.scan]
    cases hs : P.sock b with
    | none => simpa using ih h
    | some s =>
      simp only
      by_cases hn : s.id ∈ P.notified
      · rw [if_pos hn]
        cases hq : s.queue with
        | nil => simpa using ih h
        | cons y rest =>
          have hpop : ∃ q1, (P.pop b).q a = some q1 ∧ q = Spec.ofClient a [(b, y)] ++ q1 := by
            by_cases hb : b = a
            · subst hb
              simp only [PollSt.q, hs, Option.map_some, Option.some.injEq] at h
              refine ⟨rest, by simp [PollSt.q, PollSt.pop, hs, hq], ?_⟩
              rw [← h, hq]
              simp [Spec.ofClient]
            · refine ⟨q, ?_, by simp [Spec.ofClient, hb]⟩
              rw [← h]
              simp [PollSt.q, PollSt.pop, Ne.symm hb]
          obtain ⟨q1, h1, h2⟩ := hpop
          cases y with
          | err =>
            obtain ⟨q2, h3, h4⟩ := ih h1
            refine ⟨q2, h3, ?_⟩
            rw [h2, h4, ← List.append_assoc]
            simp only [Spec.ofClient]
            rw [← List.filterMap_append]
          | data d => exact ⟨q1, by rw [q_rearm]; exact h1, h2⟩
      · rw [if_neg hn]; simpa using ih h

/-- Specification: what arrives at the socket of `a` during iteration `k`. -/
def Spec.arrivedAt {S} (v : Srv S) (t0 : Nat) (is : List PTurn) (a : Addr) (k : Nat) : List Item :=
  match is[k]?, v.pout t0 is k with
  | some i, some o => Spec.itemsFor a i.before ++ (if o.out.read = none then Spec.itemsFor a i.during else [])
  | _, _ => []

/-- Specification: `f s ++ f (s + 1) ++ … ++ f (s + n - 1)`. -/
def Spec.concat {α : Type} (f : Nat → List α) (s : Nat) : Nat → List α
  | 0 => []
  | n + 1 => Spec.concat f s n ++ f (s + n)

theorem piter_q {S} (v : Srv S) (L : LoopSt) (P : PollSt) (i : PTurn) (hnd : L.srv.addrs.Nodup) {a : Addr} {q : List Item}
    (h : P.q a = some q) (ha : a ∈ Spec.table v L i) :
    ∃ q', (v.piter L P i).2.1.q a = some q' ∧
      q ++ (Spec.itemsFor a i.before ++ (if (v.piter L P i).2.2.out.read = none then Spec.itemsFor a i.during else [])) =
        Spec.ofClient a (v.piter L P i).2.2.took ++ q' := by
  have h1 : (v.asked L P i).q a = some (q ++ Spec.itemsFor a i.before) := by
    refine q_arrivals ?_ _
    rw [← h]
    have : a ∈ v.seen L (i.turn (fun _ => none) none) := ha
    simp [PollSt.q, PollSt.keep, this]
  obtain ⟨q1, h2, h3⟩ := q_scan h1 ((Spec.table v L i).drop L.nextRecv)
  cases hr : (v.scanned L P i).read with
  | some y =>
    obtain ⟨b, d⟩ := y
    obtain ⟨g1, -⟩ := (iter_scan v L (v.asked L P i) i none hnd).1 b d hr
    rw [piter_read v L P i b d hr]
    simp only
    rw [g1]
    exact ⟨q1, h2, by rw [if_neg (by simp), List.append_nil]; exact h3⟩
  | none =>
    obtain ⟨g1, -⟩ := (iter_scan v L (v.asked L P i) i (v.waited L P i).mainQ.head? hnd).2 hr
    rw [piter_none v L P i hr]
    simp only
    rw [if_pos g1]
    have hw : (v.waited L P i).q a = some (q1 ++ Spec.itemsFor a i.during) := by
      unfold Srv.waited PollSt.polled
      rw [q_wait]
      exact q_arrivals (P := (v.scanned L P i).st.rearmMain) h2 _
    refine ⟨q1 ++ Spec.itemsFor a i.during, ?_, ?_⟩
    · cases ht : v.taken L P i with
      | none => exact hw
      | some b =>
        have hab : a ≠ b := by
          rintro rfl
          unfold Srv.taken at ht
          split at ht
          · split at ht
            · rename_i hx; cases ht; exact hx.2 ha
            · cases ht
          · cases ht
        rw [← hw]
        simp [PollSt.q, PollSt.register, hab]
    · rw [← List.append_assoc, h3, List.append_assoc]
      rfl

/-- **C67**, in order: what waits at the socket of `a` after `s` iterations, followed by what arrives there in the next `n`, is
what these take from it, in this order, followed by what waits afterwards. (The client stays in the table.) Nothing is lost,
repeated, reordered or taken for another client's. -/
theorem c67_in_order {S} (v : Srv S) (t0 : Nat) (is : List PTurn) (s n : Nat) (a : Addr) (u : PSock) (hl : s + n ≤ is.length)
    (hu : (v.ploop t0 (is.take s)).2.sock a = some u)
    (hstay : ∀ k i, s ≤ k → k < s + n → is[k]? = some i → a ∈ Spec.table v (v.ploop t0 (is.take k)).1 i) :
    ∃ u', (v.ploop t0 (is.take (s + n))).2.sock a = some u' ∧
      u.queue ++ Spec.concat (Spec.arrivedAt v t0 is a) s n =
        Spec.concat (fun k => Spec.ofClient a (Spec.took v t0 is k)) s n ++ u'.queue := by
  induction n with
  | zero => exact ⟨u, hu, by simp [Spec.concat]⟩
  | succ n ih =>
    obtain ⟨u1, h1, h2⟩ := ih (by omega) (fun k i k1 k2 hi => hstay k i k1 (by omega) hi)
    have hi : is[s + n]? = some is[s + n] := List.getElem?_eq_getElem (by omega)
    obtain ⟨q', h3, h4⟩ := piter_q v _ _ is[s + n] (ploop_nodup v t0 (is.take (s + n))).1
      (show (v.ploop t0 (is.take (s + n))).2.q a = some u1.queue from by simp [PollSt.q, h1]) (hstay _ _ (by omega) (by omega) hi)
    obtain ⟨u2, h5, rfl⟩ := Option.map_eq_some_iff.mp h3
    refine ⟨u2, by rw [show s + (n + 1) = s + n + 1 from rfl, ploop_take_succ v t0 is _ _ hi]; exact h5, ?_⟩
    simp only [Spec.concat]
    rw [← List.append_assoc, h2, List.append_assoc, List.append_assoc]
    congr 1
    simp only [Spec.arrivedAt, Spec.took, Srv.pout, hi, Option.map_some, Option.getD_some]
    exact h4

/-! ### Numbers used again -/

/-- A client at address 2 comes and goes, while the client at address 1 stays. -/
def churn : Nat → PollSt → PollSt
  | 0, P => P
  | n + 1, P => churn n ((P.register 2).keep [1])

/-- The sockets with client 1 alone, whose number is 2, when the last number given is `n`. -/
def lone (n : Nat) : PollSt := ⟨fun a => if a = 1 then some ⟨2, [], true⟩ else none, [], true, [], [], n⟩

theorem lone_churn (n : Nat) : ((lone n).register 2).keep [1] = lone (nextId n) := by
  unfold lone PollSt.register PollSt.keep
  simp only [List.filter_nil, PollSt.mk.injEq, and_true]
  funext a
  by_cases h : a = 1
  · subst h; simp
  · simp [h]

theorem churn_lone (n m : Nat) (h : m + n < 2 ^ 32) : churn n (lone m) = lone (m + n) := by
  induction n generalizing m with
  | zero => rfl
  | succ n ih =>
    rw [churn, lone_churn, show nextId m = m + 1 from by unfold nextId; rw [if_pos (by omega)], ih (m + 1) (by omega)]
    congr 1
    omega

theorem churn_add (m n : Nat) (P : PollSt) : churn (m + n) P = churn n (churn m P) := by
  induction m generalizing P with
  | zero => rw [Nat.zero_add]; rfl
  | succ m ih => rw [show m + 1 + n = (m + n) + 1 from by omega, churn, churn, ih]

/-- The sockets of the witness: client 1 is accepted, then 2^32 - 2 others come and go one after the other, then client 3 is accepted;
1 and 3 send a datagram each; the server waits, is told of both, and asks its clients. -/
def reuse : PollSt :=
  let P := (churn (2 ^ 32 - 2) (PollSt.new.register 1)).register 3
  (((P.arrive (.client 1 (.data [1]))).arrive (.client 3 (.data [3]))).wait 1)

/-- **C67**, its limit: after 2^32 - 1 accepted clients numbers are used again. If a client which has been there since then gets
company with its own number, the server reads the first one's datagram and forgets that the other one's waits: the socket is
not asked, not armed and not going to be reported. So `c67_every_datagram_read` needs its bound on accepted clients. -/
theorem c67_numbers_wrap :
    (reuse.scan [1, 3]).took = [(1, .data [1])] ∧
    ((reuse.scan [1, 3]).st.sock 3).map (·.queue) = some [.data [3]] ∧
    ((reuse.scan [1, 3]).st.sock 3).map (·.armed) = some false ∧
    ((reuse.scan [1, 3]).st.sock 3).map (fun s => decide (s.id ∈ (reuse.scan [1, 3]).st.notified)) = some false ∧
    some 3 ∉ (reuse.scan [1, 3]).st.fifo := by
  have h0 : PollSt.new.register 1 = lone 2 := by
    unfold PollSt.new PollSt.register lone
    simp [nextId]
  have h1 : churn (2 ^ 32 - 2) (lone 2) = lone 1 := by
    rw [show 2 ^ 32 - 2 = (2 ^ 32 - 3) + 1 from rfl, churn_add, churn_lone _ _ (by decide)]
    show ((lone (2 + (2 ^ 32 - 3))).register 2).keep [1] = lone 1
    rw [lone_churn]
    rfl
  have h2 : reuse = ((((lone 1).register 3).arrive (.client 1 (.data [1]))).arrive (.client 3 (.data [3]))).wait 1 := by
    unfold reuse
    rw [h0, h1]
  rw [h2]
  decide +kernel

end Tftp

import Verif.PollOrder
import Verif.WaitSpec
/-
C79: the single threaded server sleeps only while there is nothing to read. Whenever it waits at its sockets for some time, a datagram
which waits already or arrives meanwhile is reported by the poller, so the wait ends at once. Exception: a client whose socket reported an
error last; its next datagram does not wake the server (`Toy.c79_error_delays`).
-/
namespace Tftp

/-! ### Specification -/

/-- The sockets with which the server begins to wait in iteration `k`, and the sockets the poller has to report at the end of the wait:
none means that the whole time passes. -/
def Spec.reported {S} (v : Srv S) (t0 : Nat) (is : List PTurn) (k : Nat) : List (Option Addr) := match is[k]? with
  | none => []
  | some i =>
    let P := i.during.foldl PollSt.arrive (v.scanned (v.ploop t0 (is.take k)).1 (v.ploop t0 (is.take k)).2 i).st.rearmMain
    (P.fifo.filter P.waiting).take (i.room + 1)

/-- The sockets when the server begins to wait in iteration `k`. -/
def Spec.atWait {S} (v : Srv S) (t0 : Nat) (is : List PTurn) (k : Nat) : PollSt := match is[k]? with
  | none => .new
  | some i => (v.scanned (v.ploop t0 (is.take k)).1 (v.ploop t0 (is.take k)).2 i).st

/-- In iteration `k` the server waits for up to `n` milliseconds. -/
def Spec.sleeps {S} (v : Srv S) (t0 : Nat) (is : List PTurn) (k n : Nat) : Prop :=
  ∃ o, v.pout t0 is k = some o ∧ o.out.polled = some (some n)

/-- What the server took last from the socket of `a` in the first `n` iterations. -/
def Spec.lastTaken {S} (v : Srv S) (t0 : Nat) (is : List PTurn) (a : Addr) : Nat → Option Item
  | 0 => none
  | n + 1 => match (Spec.ofClient a (Spec.took v t0 is n)).getLast? with
    | some x => some x
    | none => Spec.lastTaken v t0 is a n

/-! ### Notified sockets have something to read -/

/-- A socket is asked only if something waits there. -/
def PollSt.Fresh (P : PollSt) (a : Addr) : Prop := ∀ s, P.sock a = some s → s.id ∈ P.notified → s.queue ≠ []

def PollSt.Bounded (P : PollSt) : Prop := ∀ n ∈ P.notified, n ≤ P.lastId

theorem fresh_arrive {P : PollSt} {a : Addr} (h : P.Fresh a) (x : Arrival) : (P.arrive x).Fresh a := by
  cases x with
  | main b d => exact h
  | client b x =>
    simp only [PollSt.arrive]
    split
    · exact h
    · rename_i s hs
      intro u hu hn
      simp only at hu
      split at hu
      · cases hu; simp
      · exact h u hu hn

theorem fresh_arrivals {P : PollSt} {a : Addr} (h : P.Fresh a) (xs : List Arrival) : (xs.foldl PollSt.arrive P).Fresh a := by
  induction xs generalizing P with
  | nil => exact h
  | cons x xs ih => exact ih (fresh_arrive h x)

theorem arrive_notified (P : PollSt) (x : Arrival) : (P.arrive x).notified = P.notified := by
  cases x with
  | main b d => rfl
  | client b x => simp only [PollSt.arrive]; split <;> rfl

theorem arrivals_notified (P : PollSt) (xs : List Arrival) : (xs.foldl PollSt.arrive P).notified = P.notified := by
  induction xs generalizing P with
  | nil => rfl
  | cons x xs ih => rw [List.foldl_cons, ih, arrive_notified]

theorem fresh_keep {P : PollSt} {a : Addr} (h : P.Fresh a) (l : List Addr) : (P.keep l).Fresh a := by
  intro s hs hn
  simp only [PollSt.keep] at hs hn
  split at hs
  · exact h s hs hn
  · cases hs

theorem fresh_rearmMain {P : PollSt} {a : Addr} (h : P.Fresh a) : P.rearmMain.Fresh a :=
  fun s hs hn => h s hs (List.mem_filter.mp hn).1

theorem fresh_pop {P : PollSt} {a b : Addr} (h : P.Fresh a) (hb : a ≠ b) : (P.pop b).Fresh a := by
  intro s hs hn
  simp only [PollSt.pop, if_neg hb] at hs
  exact h s hs hn

theorem rearm_notified {P : PollSt} {b : Addr} {n : Nat} (h : n ∈ (P.rearm b).notified) : n ∈ P.notified := by
  unfold PollSt.rearm at h
  split at h
  · exact h
  · exact (List.mem_filter.mp h).1

theorem fresh_rearm {P : PollSt} {a b : Addr} (h : P.Fresh a) : (P.rearm b).Fresh a := by
  intro s hs hn
  have hn' := rearm_notified hn
  unfold PollSt.rearm at hs hn
  split at hs
  · exact h s hs hn'
  · rename_i u hu
    simp only at hs
    split at hs
    · rename_i hab
      subst hab
      cases hs
      exact h u hu hn'
    · exact h s hs hn'

theorem fresh_rearm_self (P : PollSt) (a : Addr) : (P.rearm a).Fresh a := by
  intro s hs hn
  unfold PollSt.rearm at hs hn
  split at hs
  · rename_i h; rw [h] at hs; cases hs
  · rename_i u hu
    rw [hu] at hn
    simp only [if_true] at hs
    cases hs
    simp at hn

theorem scan_notified (P : PollSt) (r : List Addr) (n : Nat) (h : n ∈ (P.scan r).st.notified) : n ∈ P.notified := by
  induction r generalizing P with
  | nil => exact h
  | cons b r ih =>
    simp only [PollSt.scan] at h
    split at h
    · exact ih P h
    · split at h
      · split at h
        · exact ih P h
        · have := ih (P.pop b) h
          exact this
        · exact rearm_notified (P := P.pop b) h
      · exact ih P h

theorem scan_id (P : PollSt) (r : List Addr) (a : Addr) (s : PSock) (h : (P.scan r).st.sock a = some s) :
    ∃ u, P.sock a = some u ∧ u.id = s.id := by
  induction r generalizing P with
  | nil => exact ⟨s, h, rfl⟩
  | cons b r ih =>
    have hpop : ∀ u, (P.pop b).sock a = some u → ∃ w, P.sock a = some w ∧ w.id = u.id := by
      intro u hu
      simp only [PollSt.pop] at hu
      split at hu
      · rename_i hab
        subst hab
        obtain ⟨w, hw, rfl⟩ := Option.map_eq_some_iff.mp hu
        exact ⟨w, hw, rfl⟩
      · exact ⟨u, hu, rfl⟩
    simp only [PollSt.scan] at h
    split at h
    · exact ih P h
    · split at h
      · split at h
        · exact ih P h
        · obtain ⟨u, hu, hid⟩ := ih _ h
          obtain ⟨w, hw, hid'⟩ := hpop u hu
          exact ⟨w, hw, hid'.trans hid⟩
        · simp only at h
          unfold PollSt.rearm at h
          split at h
          · exact hpop s h
          · rename_i u hu
            simp only at h
            split at h
            · rename_i hab
              subst hab
              cases h
              exact hpop u hu
            · exact hpop s h
      · exact ih P h

/-- Nothing is taken from the socket of `a`. -/
theorem fresh_scan_none {P : PollSt} {a : Addr} (h : P.Fresh a) (r : List Addr) (ht : ∀ x, (a, x) ∉ (P.scan r).took) : (P.scan r).st.Fresh a := by
  induction r generalizing P with
  | nil => exact h
  | cons b r ih =>
    simp only [PollSt.scan] at ht ⊢
    cases hb : P.sock b with
    | none =>
      rw [hb] at ht
      simp only [List.nil_append] at ht ⊢
      exact ih h ht
    | some s =>
      rw [hb] at ht
      simp only at ht ⊢
      by_cases hn : s.id ∈ P.notified
      · simp only [if_pos hn] at ht ⊢
        cases hq : s.queue with
        | nil =>
          rw [hq] at ht
          simp only [List.nil_append] at ht ⊢
          exact ih h ht
        | cons y q =>
          rw [hq] at ht
          cases y with
          | err =>
            simp only at ht ⊢
            have hab : a ≠ b := by
              intro e; subst e
              exact ht .err (by simp)
            exact ih (fresh_pop h hab) (fun x hx => ht x (by simp [hx]))
          | data d =>
            simp only at ht ⊢
            have hab : a ≠ b := by
              intro e; subst e
              exact ht (.data d) (by simp)
            exact fresh_rearm (fresh_pop h hab)
      · simp only [if_neg hn, List.nil_append] at ht ⊢
        exact ih h ht

/-- A datagram is taken from the socket of `a`. -/
theorem fresh_scan_data {P : PollSt} {a : Addr} (r : List Addr) (d : Bytes) (ht : (a, .data d) ∈ (P.scan r).took) :
    (P.scan r).st.Fresh a := by
  induction r generalizing P with
  | nil => cases ht
  | cons b r ih =>
    simp only [PollSt.scan] at ht ⊢
    cases hb : P.sock b with
    | none =>
      rw [hb] at ht
      simp only [List.nil_append] at ht ⊢
      exact ih ht
    | some s =>
      rw [hb] at ht
      simp only at ht ⊢
      by_cases hn : s.id ∈ P.notified
      · simp only [if_pos hn] at ht ⊢
        cases hq : s.queue with
        | nil =>
          rw [hq] at ht
          simp only [List.nil_append] at ht ⊢
          exact ih ht
        | cons y q =>
          rw [hq] at ht
          cases y with
          | err =>
            simp only at ht ⊢
            exact ih (by simpa using ht)
          | data d' =>
            simp only [List.mem_singleton, Prod.mk.injEq] at ht ⊢
            obtain ⟨rfl, -⟩ := ht
            exact fresh_rearm_self _ _
      · simp only [if_neg hn, List.nil_append] at ht ⊢
        exact ih ht

/-- All have been asked and no datagram was found. -/
theorem scan_all {P : PollSt} {a : Addr} (h : P.Fresh a) (r : List Addr) (ha : a ∈ r) (hr : (P.scan r).read = none)
    (ht : (a, .err) ∉ (P.scan r).took) (s : PSock) (hs : (P.scan r).st.sock a = some s) : s.id ∉ (P.scan r).st.notified := by
  induction r generalizing P with
  | nil => cases ha
  | cons b r ih =>
    have later : ∀ Q : PollSt, (∀ u, Q.sock a = some u → u.id ∉ Q.notified) → ∀ s, (Q.scan r).st.sock a = some s →
        s.id ∉ (Q.scan r).st.notified := by
      intro Q hQ s hs hn
      obtain ⟨u, hu, hid⟩ := scan_id Q r a s hs
      exact hQ u hu (by rw [hid]; exact scan_notified Q r _ hn)
    have rest : a ≠ b → a ∈ r := fun hne => by
      rcases List.mem_cons.mp ha with e | h
      · exact (hne e).elim
      · exact h
    simp only [PollSt.scan] at hr ht hs ⊢
    cases hb : P.sock b with
    | none =>
      rw [hb] at hr ht hs
      simp only [List.nil_append] at hr ht hs ⊢
      by_cases hab : a = b
      · subst hab
        exact later P (fun u hu => by rw [hb] at hu; cases hu) s hs
      · exact ih h (rest hab) hr ht hs
    | some w =>
      rw [hb] at hr ht hs
      simp only at hr ht hs ⊢
      by_cases hn : w.id ∈ P.notified
      · simp only [if_pos hn] at hr ht hs ⊢
        cases hq : w.queue with
        | nil =>
          rw [hq] at hr ht hs
          simp only [List.nil_append] at hr ht hs ⊢
          by_cases hab : a = b
          · subst hab
            exact absurd hq (h w hb hn)
          · exact ih h (rest hab) hr ht hs
        | cons y q =>
          rw [hq] at hr ht hs
          cases y with
          | err =>
            simp only at hr ht hs ⊢
            by_cases hab : a = b
            · subst hab
              exact absurd (by simp) ht
            · exact ih (fresh_pop h hab) (rest hab) hr (fun hx => ht (by simp [hx])) hs
          | data d =>
            simp only at hr
            cases hr
      · simp only [if_neg hn, List.nil_append] at hr ht hs ⊢
        by_cases hab : a = b
        · subst hab
          exact later P (fun u hu => by rw [hb] at hu; cases hu; exact hn) s hs
        · exact ih h (rest hab) hr ht hs

/-! ### One iteration -/

theorem fresh_wait {P : PollSt} {l : List Addr} (hok : P.Ok l) {a : Addr} (h : P.Fresh a) (n : Nat) : (P.wait n).Fresh a := by
  intro u hu hn
  simp only [PollSt.wait, Option.map_eq_some_iff] at hu hn
  obtain ⟨s, hs, rfl⟩ := hu
  have hid : (if some a ∈ (P.fifo.filter P.waiting).take (n + 1) then { s with armed := false } else s).id = s.id := by split <;> rfl
  have hqu : (if some a ∈ (P.fifo.filter P.waiting).take (n + 1) then { s with armed := false } else s).queue = s.queue := by split <;> rfl
  rw [hid] at hn
  rw [hqu]
  rcases List.mem_append.mp hn with hn | hn
  · exact h s hs hn
  · obtain ⟨x, hx, he⟩ := List.mem_filterMap.mp hn
    have hw := (List.mem_filter.mp (List.mem_of_mem_take hx)).2
    cases x with
    | none =>
      simp only [Option.some.injEq] at he
      exact absurd he.symm (hok.pos a s hs)
    | some b =>
      simp only [Option.map_eq_some_iff] at he
      obtain ⟨w, hw', he⟩ := he
      have := hok.inj b a w s hw' hs he
      subst this
      rw [hs] at hw'
      cases hw'
      intro hq
      simp only [PollSt.waiting, hs, hq] at hw
      cases hw

theorem bounded_wait {P : PollSt} {l : List Addr} (hok : P.Ok l) (h : P.Bounded) (n : Nat) : (P.wait n).Bounded := by
  intro m hm
  simp only [PollSt.wait] at hm
  show m ≤ P.lastId
  rcases List.mem_append.mp hm with hm | hm
  · exact h m hm
  · obtain ⟨x, -, he⟩ := List.mem_filterMap.mp hm
    cases x with
    | none => simp only [Option.some.injEq] at he; omega
    | some b =>
      simp only [Option.map_eq_some_iff] at he
      obtain ⟨w, hw', he⟩ := he
      rw [← he]
      exact hok.bnd b w hw'

theorem fresh_polled {P : PollSt} {l : List Addr} (hok : P.Ok l) {a : Addr} (h : P.Fresh a) (i : PTurn) : (P.polled i).Fresh a :=
  fresh_wait (ok_arrivals (ok_rearmMain hok) _) (fresh_arrivals (fresh_rearmMain h) _) _

theorem bounded_polled {P : PollSt} {l : List Addr} (hok : P.Ok l) (h : P.Bounded) (i : PTurn) : (P.polled i).Bounded := by
  refine bounded_wait (ok_arrivals (ok_rearmMain hok) _) (fun m hm => ?_) _
  rw [arrivals_notified] at hm
  rw [arrivals_lastId]
  exact h m (List.mem_filter.mp hm).1

theorem bounded_scanned {S} (v : Srv S) (L : LoopSt) {P : PollSt} (i : PTurn) (h : P.Bounded) : (v.scanned L P i).st.Bounded := by
  intro m hm
  unfold Srv.scanned at hm ⊢
  have := scan_notified _ _ _ hm
  rw [scan_lastId, asked_lastId]
  unfold Srv.asked at this
  rw [arrivals_notified] at this
  exact h m this

theorem fresh_register {P : PollSt} {a b : Addr} (hb : P.Bounded) (hid : P.lastId + 1 < 2 ^ 32) (h : a ≠ b → P.Fresh a) :
    (P.register b).Fresh a := by
  intro s hs hn
  simp only [PollSt.register] at hs hn
  split at hs
  · cases hs
    simp only [nextId, if_pos hid] at hn
    have := hb _ hn
    omega
  · rename_i hne
    exact h hne s hs hn

theorem bounded_register {P : PollSt} {b : Addr} (hb : P.Bounded) (hid : P.lastId + 1 < 2 ^ 32) : (P.register b).Bounded := by
  intro m hm
  have := hb m hm
  simp only [PollSt.register, nextId, if_pos hid]
  omega

/-- The part of the invariant about one client: as long as the last thing taken from its socket is not an error, the socket is asked only
if something waits there. -/
theorem piter_fresh {S} (v : Srv S) (L : LoopSt) (P : PollSt) (i : PTurn) (hok : P.Ok L.srv.addrs) (hbd : P.Bounded)
    (hid : (v.piter L P i).2.2.accepted ≠ none → P.lastId + 1 < 2 ^ 32) (a : Addr) :
    (v.piter L P i).2.1.Bounded ∧
    ((v.scanned L P i).st.Fresh a → (v.piter L P i).2.1.Fresh a) := by
  have hA := asked_ok v L P i hok
  have hS : (v.scanned L P i).st.Ok (Spec.table v L i) := ok_scan hA _
  have hSb := bounded_scanned v L i hbd
  cases hr : (v.scanned L P i).read with
  | some x =>
    obtain ⟨b, d⟩ := x
    rw [piter_read v L P i b d hr]
    exact ⟨hSb, id⟩
  | none =>
    rw [piter_none v L P i hr] at hid ⊢
    have hWb : (v.waited L P i).Bounded := bounded_polled hS hSb i
    have hWl : (v.waited L P i).lastId = P.lastId := by
      unfold Srv.waited; rw [polled_lastId]; unfold Srv.scanned; rw [scan_lastId, asked_lastId]
    simp only at hid ⊢
    cases ht : v.taken L P i with
    | none => exact ⟨hWb, fun h => fresh_polled hS h i⟩
    | some b =>
      rw [ht] at hid
      have hid := hid (by simp)
      rw [← hWl] at hid
      exact ⟨bounded_register hWb hid, fun h => fresh_register hWb hid (fun _ => fresh_polled hS h i)⟩

theorem mem_ofClient {a : Addr} {x : Item} {l : List (Addr × Item)} : x ∈ Spec.ofClient a l ↔ (a, x) ∈ l := by
  unfold Spec.ofClient
  rw [List.mem_filterMap]
  constructor
  · rintro ⟨⟨b, y⟩, h1, h2⟩
    split at h2
    · rename_i e; cases h2; cases e; exact h1
    · cases h2
  · intro h
    exact ⟨(a, x), h, by simp⟩

theorem piter_took {S} (v : Srv S) (L : LoopSt) (P : PollSt) (i : PTurn) : (v.piter L P i).2.2.took = (v.scanned L P i).took := rfl

theorem asked_fresh {S} (v : Srv S) (L : LoopSt) {P : PollSt} (i : PTurn) {a : Addr} (h : P.Fresh a) : (v.asked L P i).Fresh a :=
  fresh_arrivals (fresh_keep h _) _

/-- All histories. -/
theorem ploop_fresh {S} (v : Srv S) (t0 : Nat) (is : List PTurn) (a : Addr) (k : Nat) (hk : k ≤ is.length)
    (ha : Spec.accepts v t0 is k < 2 ^ 32 - 1) :
    (v.ploop t0 (is.take k)).2.Bounded ∧
    (Spec.lastTaken v t0 is a k ≠ some .err → (v.ploop t0 (is.take k)).2.Fresh a) := by
  induction k with
  | zero => exact ⟨(fun n hn => nomatch hn), (fun _ s hs => nomatch hs)⟩
  | succ k ih =>
    have hm := accepts_mono v t0 is k (k + 1) (by omega)
    obtain ⟨h1, h2⟩ := ih (by omega) (by omega)
    obtain ⟨hok, hl⟩ := ploop_ok v t0 is k (by omega) (by omega)
    have hi : is[k]? = some is[k] := List.getElem?_eq_getElem (by omega)
    have hp : v.pout t0 is k = some (v.piter (v.ploop t0 (is.take k)).1 (v.ploop t0 (is.take k)).2 is[k]).2.2 := by
      simp [Srv.pout, hi]
    simp only [Spec.accepts, hp, Option.bind_some] at ha
    rw [ploop_take_succ v t0 is k _ hi]
    simp only
    obtain ⟨g1, g2⟩ := piter_fresh v _ _ is[k] hok h1 (by
      intro hne
      rw [if_neg hne] at ha
      omega) a
    refine ⟨g1, fun hlast => g2 ?_⟩
    simp only [Spec.lastTaken, Spec.took, hp, Option.map_some, Option.getD_some, piter_took] at hlast
    cases hx : (Spec.ofClient a (v.scanned (v.ploop t0 (is.take k)).1 (v.ploop t0 (is.take k)).2 is[k]).took).getLast? with
    | none =>
      rw [hx] at hlast
      have hnil := List.getLast?_eq_none_iff.mp hx
      refine fresh_scan_none (asked_fresh v _ _ (h2 hlast)) _ (fun x hmem => ?_)
      have := mem_ofClient.mpr hmem
      unfold Srv.scanned at hnil
      rw [hnil] at this
      cases this
    | some x =>
      rw [hx] at hlast
      have hmem := mem_ofClient.mp (List.mem_of_getLast? hx)
      cases x with
      | err => exact absurd rfl hlast
      | data d => exact fresh_scan_data _ d hmem

/-! ### When the server sleeps -/

/-- After an iteration in which the server has not read from all clients it does not sleep. -/
theorem loop_receiving {S} (v : Srv S) (t0 : Nat) (is : List Turn) :
    (v.loop t0 is).nextRecv = 0 ∨ (v.loop t0 is).wait.receiving = true := by
  induction is using snoc_induction with
  | nil => exact .inl rfl
  | snoc is i _ =>
    rw [loop_snoc]
    unfold Srv.iter
    simp only
    split
    · exact .inr rfl
    · split
      · exact .inl rfl
      · split
        · exact .inl rfl
        · exact .inl rfl

/-- A server which polls its sockets has read from no client in that iteration. -/
theorem iter_polled_read {S} (v : Srv S) (L : LoopSt) (i : Turn) {x : Option Nat} (h : (v.iter L i).2.polled = some x) :
    (v.iter L i).2.read = none := by
  unfold Srv.iter at h ⊢
  simp only at h ⊢
  split
  · rename_i heq
    rw [heq] at h
    cases h
  · split
    · rfl
    · split <;> rfl

/-- If the server sleeps, it has asked all clients. -/
theorem sleep_asked_all {S} (v : Srv S) (t0 : Nat) (is : List PTurn) (k n : Nat) (i : PTurn) (hi : is[k]? = some i)
    (h : Spec.sleeps v t0 is k n) :
    (v.scanned (v.ploop t0 (is.take k)).1 (v.ploop t0 (is.take k)).2 i).read = none ∧
    (∀ a ∈ Spec.table v (v.ploop t0 (is.take k)).1 i, a ∈ (Spec.table v (v.ploop t0 (is.take k)).1 i).drop (v.ploop t0 (is.take k)).1.nextRecv) := by
  obtain ⟨o, ho, hp⟩ := h
  simp only [Srv.pout, hi, Option.map_some, Option.some.injEq] at ho
  subst ho
  have hrec := loop_receiving v t0 (v.turns t0 (is.take k))
  rw [← ploop_loop] at hrec
  have hnd := (ploop_nodup v t0 (is.take k)).1
  generalize (v.ploop t0 (is.take k)).1 = L at hp hrec hnd ⊢
  generalize (v.ploop t0 (is.take k)).2 = P at hp ⊢
  have hread : (v.scanned L P i).read = none := by
    cases hr : (v.scanned L P i).read with
    | none => rfl
    | some x =>
      obtain ⟨b, d⟩ := x
      exfalso
      obtain ⟨h1, -⟩ := (iter_scan v L (v.asked L P i) i none hnd).1 b d hr
      rw [piter_read v L P i b d hr] at hp
      simp only at hp
      rw [iter_polled_read v L _ hp] at h1
      cases h1
  refine ⟨hread, ?_⟩
  rcases hrec with h0 | hrec
  · rw [h0]; intro a ha; exact ha
  · intro a ha
    exfalso
    rw [piter_none v L P i hread] at hp
    simp only at hp
    generalize (v.waited L P i).mainQ.head? = m at hp
    have hs : Spec.table v L i = (v.sendRound (v.check L (i.turn (v.asked L P i).ready m)).srv i.ts i.sio).1.addrs :=
      (sendRound_addrs v _ _ _).symm
    have hlen : (v.sendRound (v.check L (i.turn (v.asked L P i).ready m)).srv i.ts i.sio).1.clients.length ≠ 0 := by
      intro h0
      rw [hs] at ha
      simp only [SrvSt.addrs] at ha
      rw [List.length_eq_zero_iff.mp h0] at ha
      cases ha
    have hw : (v.check L (i.turn (v.asked L P i).ready m)).wait = L.wait := by unfold Srv.check; split <;> rfl
    have hnone : ∀ b, ((v.check L (i.turn (v.asked L P i).ready m)).wait.sent b).time
        (v.sendRound (v.check L (i.turn (v.asked L P i).ready m)).srv i.ts i.sio).1.clients.length = none := by
      intro b
      rw [hw]
      unfold Wait.time
      rw [if_neg hlen]
      have : (L.wait.sent b).receiving = true := by unfold Wait.sent; split <;> exact hrec
      simp [this]
    revert hp
    unfold Srv.iter
    simp only
    split
    · intro hp; cases hp
    · have := hnone (v.sendRound (v.check L (i.turn (v.asked L P i).ready m)).srv i.ts i.sio).2.1.isSome
      split
      · intro hp
        simp only [Option.some.injEq] at hp
        rw [show (i.turn (v.asked L P i).ready m).ts = i.ts from rfl, show (i.turn (v.asked L P i).ready m).sio = i.sio from rfl, this] at hp
        cases hp
      · split
        · intro hp
          simp only [Option.some.injEq] at hp
          rw [show (i.turn (v.asked L P i).ready m).ts = i.ts from rfl, show (i.turn (v.asked L P i).ready m).sio = i.sio from rfl, this] at hp
          cases hp
        · intro hp
          simp only [Option.some.injEq] at hp
          rw [show (i.turn (v.asked L P i).ready m).ts = i.ts from rfl, show (i.turn (v.asked L P i).ready m).sio = i.sio from rfl, this] at hp
          cases hp

/-! ### C79 -/

/-- What `Spec.reported` says is what the poller hands to the server: the numbers of these sockets are added to those the server is going
to ask. -/
theorem reported_notified {S} (v : Srv S) (t0 : Nat) (is : List PTurn) (k : Nat) (i : PTurn) (hi : is[k]? = some i) :
    ((Spec.atWait v t0 is k).polled i).notified = (Spec.atWait v t0 is k).notified.filter (· ≠ 0) ++
      (Spec.reported v t0 is k).filterMap (fun
        | none => some 0
        | some a => ((i.during.foldl PollSt.arrive (Spec.atWait v t0 is k).rearmMain).sock a).map (·.id)) := by
  simp only [Spec.reported, Spec.atWait, hi, PollSt.polled, PollSt.wait, arrivals_notified]
  rfl

theorem main_cover (P : PollSt) (h : P.mainArmed = true ∧ (P.mainQ ≠ [] → none ∈ P.fifo)) (xs : List Arrival) :
    (xs.foldl PollSt.arrive P).mainArmed = true ∧ ((xs.foldl PollSt.arrive P).mainQ ≠ [] → none ∈ (xs.foldl PollSt.arrive P).fifo) ∧
    ((∃ a d, Arrival.main a d ∈ xs) ∨ P.mainQ ≠ [] → (xs.foldl PollSt.arrive P).mainQ ≠ []) := by
  induction xs generalizing P with
  | nil => exact ⟨h.1, h.2, fun h => h.elim (fun ⟨_, _, h⟩ => nomatch h) id⟩
  | cons x xs ih =>
    have hx : (P.arrive x).mainArmed = true ∧ ((P.arrive x).mainQ ≠ [] → none ∈ (P.arrive x).fifo) := by
      cases x with
      | main a d =>
        simp only [PollSt.arrive, h.1, if_true]
        exact ⟨trivial, fun _ => mem_enqueue.mpr (.inl rfl)⟩
      | client a y =>
        simp only [PollSt.arrive]
        split
        · exact h
        · refine ⟨h.1, fun hq => ?_⟩
          simp only
          split
          · exact mem_enqueue.mpr (.inr (h.2 hq))
          · exact h.2 hq
    obtain ⟨h1, h2, h3⟩ := ih _ hx
    refine ⟨h1, h2, fun hor => h3 ?_⟩
    rcases hor with ⟨a, d, hm⟩ | hq
    · rcases List.mem_cons.mp hm with e | hm
      · subst e
        exact .inr (by simp [PollSt.arrive])
      · exact .inl ⟨a, d, hm⟩
    · obtain ⟨B, hB⟩ := arrive_mainQ P x
      refine .inr ?_
      rw [hB]
      intro h0
      exact hq (List.append_eq_nil_iff.mp h0).1

theorem take_ne_nil {α : Type} {l : List α} {n : Nat} (h : l ≠ []) : l.take (n + 1) ≠ [] := by
  cases l with
  | nil => exact absurd rfl h
  | cons x r => simp

/-- **C79**, requests: whenever the server polls its sockets, a request which waits at the main socket or arrives before the wait is over is reported:
the wait ends at once. -/
theorem c79_request_wakes {S} (v : Srv S) (t0 : Nat) (is : List PTurn) (k : Nat) (i : PTurn) (hi : is[k]? = some i)
    (h : (∃ a d, Arrival.main a d ∈ i.during) ∨ (Spec.atWait v t0 is k).mainQ ≠ []) : Spec.reported v t0 is k ≠ [] := by
  simp only [Spec.reported, Spec.atWait, hi] at h ⊢
  generalize (v.scanned (v.ploop t0 (is.take k)).1 (v.ploop t0 (is.take k)).2 i).st = P at h ⊢
  obtain ⟨-, h2, h3⟩ := main_cover P.rearmMain ⟨rfl, fun hq => by
    have hq : P.mainQ ≠ [] := hq
    simp only [PollSt.rearmMain, if_neg hq]
    exact mem_enqueue.mpr (.inl rfl)⟩ i.during
  have hq := h3 h
  refine take_ne_nil (List.ne_nil_of_mem (List.mem_filter.mpr ⟨h2 hq, ?_⟩))
  simp only [PollSt.waiting]
  cases hm : (i.during.foldl PollSt.arrive P.rearmMain).mainQ with
  | nil => exact absurd hm hq
  | cons => rfl

theorem arrivals_id (P : PollSt) (xs : List Arrival) (a : Addr) (s : PSock) (h : P.sock a = some s) :
    ∃ u, (xs.foldl PollSt.arrive P).sock a = some u ∧ u.id = s.id ∧ u.queue = s.queue ++ Spec.itemsFor a xs := by
  have hq : P.q a = some s.queue := by simp [PollSt.q, h]
  have hq' := q_arrivals hq xs
  have hid : ∀ (xs : List Arrival) (P : PollSt) (s : PSock), P.sock a = some s → ∃ u, (xs.foldl PollSt.arrive P).sock a = some u ∧ u.id = s.id := by
    intro xs
    induction xs with
    | nil => intro P s h; exact ⟨s, h, rfl⟩
    | cons x xs ih =>
      intro P s h
      have : ∃ u, (P.arrive x).sock a = some u ∧ u.id = s.id := by
        cases x with
        | main b d => exact ⟨s, h, rfl⟩
        | client b y =>
          simp only [PollSt.arrive]
          split
          · exact ⟨s, h, rfl⟩
          · rename_i w hw
            simp only
            by_cases hab : a = b
            · subst hab
              rw [if_pos rfl]
              rw [h] at hw
              cases hw
              exact ⟨_, rfl, rfl⟩
            · rw [if_neg hab]; exact ⟨s, h, rfl⟩
      obtain ⟨u, hu, hid⟩ := this
      obtain ⟨w, hw, hid'⟩ := ih _ u hu
      exact ⟨w, hw, hid'.trans hid⟩
  obtain ⟨u, hu, hi⟩ := hid xs P s h
  refine ⟨u, hu, hi, ?_⟩
  simpa [PollSt.q, hu] using hq'

/-- **C79**, clients: take any history of the single threaded server with its sockets, in which fewer than 2^32 - 1 clients were accepted.
Whenever the server sleeps, anything which waits at the socket of a client or arrives there before the sleep is over is reported: the sleep ends at
once. Missing: clients whose socket reported an error when it was read last. -/
theorem c79_client_wakes_partial {S} (v : Srv S) (t0 : Nat) (is : List PTurn) (k n : Nat) (i : PTurn) (hi : is[k]? = some i)
    (hacc : Spec.accepts v t0 is k < 2 ^ 32 - 1) (hsleep : Spec.sleeps v t0 is k n)
    (a : Addr) (s : PSock) (hs : (Spec.atWait v t0 is k).sock a = some s) (hlast : Spec.lastTaken v t0 is a (k + 1) ≠ some .err)
    (h : (∃ x, Arrival.client a x ∈ i.during) ∨ s.queue ≠ []) : Spec.reported v t0 is k ≠ [] := by
  have hk : k < is.length := (List.getElem?_eq_some_iff.mp hi).1
  obtain ⟨hread, hall⟩ := sleep_asked_all v t0 is k n i hi hsleep
  obtain ⟨hok, -⟩ := ploop_ok v t0 is k (by omega) hacc
  obtain ⟨-, hfresh⟩ := ploop_fresh v t0 is a k (by omega) hacc
  have htook : Spec.took v t0 is k = (v.scanned (v.ploop t0 (is.take k)).1 (v.ploop t0 (is.take k)).2 i).took := by
    simp [Spec.took, Srv.pout, hi, piter_took]
  simp only [Spec.lastTaken, htook] at hlast
  simp only [Spec.reported, Spec.atWait, hi] at hs ⊢
  generalize hL : (v.ploop t0 (is.take k)).1 = L at *
  generalize hP : (v.ploop t0 (is.take k)).2 = P at *
  have hA := asked_ok v L P i hok
  have hS : (v.scanned L P i).st.Ok (Spec.table v L i) := ok_scan hA _
  have hnone : ∀ x, x ∉ Spec.ofClient a (v.scanned L P i).took := by
    intro x hx
    have hx' := mem_ofClient.mp hx
    cases hg : (Spec.ofClient a (v.scanned L P i).took).getLast? with
    | none => rw [List.getLast?_eq_none_iff.mp hg] at hx; cases hx
    | some y =>
      rw [hg] at hlast
      have hy := mem_ofClient.mp (List.mem_of_getLast? hg)
      cases y with
      | err => exact hlast rfl
      | data d =>
        have := scan_took_data _ _ a d hy
        unfold Srv.scanned at hread
        rw [this] at hread
        cases hread
  have hnil : Spec.ofClient a (v.scanned L P i).took = [] := List.eq_nil_iff_forall_not_mem.mpr hnone
  rw [hnil] at hlast
  have hF := asked_fresh v L i (hfresh hlast)
  have hnot : s.id ∉ (v.scanned L P i).st.notified :=
    scan_all hF _ (hall a ((hS.dom a).mpr ⟨s, hs⟩)) hread (fun hx => hnone .err (mem_ofClient.mpr hx)) s hs
  have hQ := ok_arrivals (ok_rearmMain hS) i.during
  obtain ⟨u, hu, hid, hqu⟩ := arrivals_id (v.scanned L P i).st.rearmMain i.during a s hs
  have hune : u.queue ≠ [] := by
    rw [hqu]
    intro h0
    obtain ⟨h1, h2⟩ := List.append_eq_nil_iff.mp h0
    rcases h with ⟨x, hx⟩ | h
    · have : x ∈ Spec.itemsFor a i.during := by
        unfold Spec.itemsFor
        exact List.mem_filterMap.mpr ⟨_, hx, by simp⟩
      rw [h2] at this
      cases this
    · exact h h1
  have hin : some a ∈ (i.during.foldl PollSt.arrive (v.scanned L P i).st.rearmMain).fifo := by
    rcases hQ.cover a u hu with h1 | ⟨-, h2⟩
    · rw [arrivals_notified, hid] at h1
      exact absurd (List.mem_filter.mp h1).1 hnot
    · exact h2 hune
  refine take_ne_nil (List.ne_nil_of_mem (List.mem_filter.mpr ⟨hin, ?_⟩))
  simp only [PollSt.waiting, hu]
  cases hm : u.queue with
  | nil => exact absurd hm hune
  | cons => rfl

end Tftp

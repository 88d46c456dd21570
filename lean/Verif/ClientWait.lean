import Verif.ToyClient
/-
C97: how long an uploading client sleeps between its rounds (src/client/sender.rs:162, 200-282): the counter `no_work`, a byte which wraps around, grows while
there is nothing to do; above two it is the number of milliseconds for which the client waits for a datagram.
-/
namespace Tftp
open Spec

/-- Specification: what `recv_from` gave in one round: no datagram, one from another address than the server's, one of the server. -/
inductive Spec.Got
  | nothing
  | foreign
  | server
deriving DecidableEq

/-- Specification: what is seen of one round of the sending loop: was a block sent, how long may the client wait for a datagram (milliseconds; `none`: it does not
wait), and what came. -/
structure Spec.SendRound where
  sent : Bool
  wait : Option Nat
  got : Got

/-- The result of `recv_from`, by its source. (After an error the loop is left.) -/
def NetIn.got (ep : Ep) : NetIn → Got
  | .dgram src _ => if src = ep then .server else .foreign
  | .wouldBlock => .nothing
  | .error => .nothing

/-- `no_work` after the sending part: src/client/sender.rs:229-246. -/
def idleSent (n : Nat) (sent : Bool) : Nat := if sent then 1 else (n + 1) % 256

/-- src/client/sender.rs:250-254 `wait_for`. -/
def idleWait (n : Nat) : Option Nat := if n > 2 then some n else none

/-- `no_work` after the receiving part: src/client/sender.rs:264-282. -/
def idleGot (n : Nat) : Got → Nat
  | .nothing => (n + 1) % 256
  | .foreign => n
  | .server => 1

/-- The rounds of the sending loop in a run of the client: src/client/sender.rs:162, 184-282. The states are those of `Cli.step`; `n`: `no_work`, 0 when the loop
begins. A round is counted when it gets to `recv_from`. -/
def Cli.rounds {S} (v : Cli S) (j : Job) : CliSt → Nat → List CliIn → List SendRound
  | _, _, [] => []
  | .up c room ep s since auth, n, i :: is =>
    let r := clientSendTick c s i.retry i.fail i.wb i.net i.nonce
    let n := idleSent n r.2.isSome
    if r.1.failed then []
    else ⟨r.2.isSome, idleWait n, i.recv.got ep⟩ :: v.rounds j (v.step j (.up c room ep s since auth) i).1 (idleGot n (i.recv.got ep)) is
  | st, _, i :: is => v.rounds j (v.step j st i).1 0 is

/-- All rounds of a run from its start at time `t`. -/
def Cli.uploadRounds {S} (v : Cli S) (j : Job) (t : Nat) (is : List CliIn) : List SendRound := v.rounds j (.query (v.start j t)) 0 is

/-! ### The counter alone -/

/-- The waits follow from what was sent and what came. -/
def Counted : Nat → List SendRound → Prop
  | _, [] => True
  | n, r :: rs => r.wait = idleWait (idleSent n r.sent) ∧ Counted (idleGot (idleSent n r.sent) r.got) rs

theorem upStep_next {S} (v : Cli S) (c : Cfg) (room : Nat) (ep : Ep) (s : SendSt) (since : Nat) (auth : Option Bytes) (i : CliIn) :
    (∃ s' since', (v.upStep c room ep s since auth i).1 = .up c room ep s' since' auth) ∨ ∃ r f, (v.upStep c room ep s since auth i).1 = .done r f := by
  unfold Cli.upStep
  simp only
  repeat' split
  all_goals first
    | exact .inl ⟨_, _, rfl⟩
    | exact .inr ⟨_, _, rfl⟩

theorem rounds_done {S} (v : Cli S) (j : Job) (r : Except CliErr (Nat × Option Bytes)) (f : Bytes) (is : List CliIn) : ∀ n, v.rounds j (.done r f) n is = [] := by
  induction is with
  | nil => intro _; rfl
  | cons i is ih => intro _; exact ih 0

theorem rounds_counted {S} (v : Cli S) (j : Job) (is : List CliIn) : ∀ (st : CliSt) (n : Nat),
    match st with
    | .up .. => Counted n (v.rounds j st n is)
    | _ => Counted 0 (v.rounds j st n is) := by
  induction is with
  | nil =>
    intro st n
    cases st <;> exact trivial
  | cons i is ih =>
    have other : ∀ st : CliSt, Counted 0 (v.rounds j st 0 is) := by
      intro st
      have := ih st 0
      cases st <;> exact this
    intro st n
    cases st with
    | query q => exact other _
    | down => exact other _
    | done => exact other _
    | up c room ep s since auth =>
      show Counted n (v.rounds j (.up c room ep s since auth) n (i :: is))
      unfold Cli.rounds
      simp only
      split
      · exact trivial
      · refine ⟨rfl, ?_⟩
        show Counted _ (v.rounds j (v.upStep c room ep s since auth i).1 _ is)
        rcases upStep_next v c room ep s since auth i with ⟨s', since', h⟩ | ⟨r, f, h⟩
        · rw [h]
          exact ih (.up c room ep s' since' auth) _
        · rw [h, rounds_done]
          exact trivial

theorem uploadRounds_counted {S} (v : Cli S) (j : Job) (t : Nat) (is : List CliIn) : Counted 0 (v.uploadRounds j t is) := rounds_counted v j is (.query (v.start j t)) 0

theorem idleSent_lt (n : Nat) (b : Bool) : idleSent n b < 256 := by
  unfold idleSent
  split <;> omega

theorem idleGot_lt {n : Nat} (h : n < 256) (g : Got) : idleGot n g < 256 := by
  cases g
  · show (n + 1) % 256 < 256; omega
  · exact h
  · show 1 < 256; omega

theorem counted_append (pre rs : List SendRound) : ∀ n, n < 256 → Counted n (pre ++ rs) → ∃ m, m < 256 ∧ Counted m rs := by
  induction pre with
  | nil => intro n hn h; exact ⟨n, hn, h⟩
  | cons r pre ih => intro n hn h; exact ih _ (idleGot_lt (idleSent_lt _ _) _) h.2

theorem counted_append_left (rs post : List SendRound) : ∀ n, Counted n (rs ++ post) → Counted n rs := by
  induction rs with
  | nil => intro _ _; exact trivial
  | cons r rs ih => intro n h; exact ⟨h.1, ih _ h.2⟩

/-- Nothing was sent and no datagram came. -/
def Spec.SendRound.Quiet (r : SendRound) : Prop := r.sent = false ∧ r.got = .nothing

/-- The waits of `k` quiet rounds. -/
def quietSum : Nat → Nat → Nat
  | _, 0 => 0
  | n, k + 1 => (idleWait ((n + 1) % 256)).getD 0 + quietSum ((n + 2) % 256) k

theorem quiet_sum (q : List SendRound) : ∀ n, Counted n q → (∀ r ∈ q, r.Quiet) → (q.map (·.wait.getD 0)).sum = quietSum n q.length := by
  induction q with
  | nil => intro _ _ _; rfl
  | cons r q ih =>
    intro n h hq
    obtain ⟨h1, h2⟩ := h
    obtain ⟨g1, g2⟩ := hq r (List.mem_cons_self ..)
    rw [g1] at h1 h2
    rw [g2] at h2
    have e : idleGot (idleSent n false) .nothing = (n + 2) % 256 := by
      show ((n + 1) % 256 + 1) % 256 = _
      omega
    rw [e] at h2
    have := ih _ h2 fun x hx => hq x (List.mem_cons_of_mem _ hx)
    simp only [List.map_cons, List.sum_cons, this, h1, List.length_cons]
    rfl

theorem quietSum_turn : ∀ n, n < 256 → 16254 ≤ quietSum n 128 := by decide +kernel

/-! ### C97 -/

/-- **C97**, what the rounds are: the round of an iteration says whether the iteration sends a datagram and whether a datagram of the server (its address and port), one of
somebody else or none comes; it is missing only when the loop is left before the client waits; the next round belongs to the next iteration. -/
theorem c97_seen {S} (v : Cli S) (j : Job) (c : Cfg) (room : Nat) (ep : Ep) (s : SendSt) (since : Nat) (auth : Option Bytes) (n : Nat) (i : CliIn) (is : List CliIn) :
    (v.rounds j (.up c room ep s since auth) n (i :: is) = [] ∧ (v.step j (.up c room ep s since auth) i).1 = .done (.error .io) []) ∨
    ∃ r n', v.rounds j (.up c room ep s since auth) n (i :: is) = r :: v.rounds j (v.step j (.up c room ep s since auth) i).1 n' is ∧
      (r.sent = true ↔ (v.step j (.up c room ep s since auth) i).2 ≠ []) ∧ (r.got = .server ↔ ∃ b, i.recv = .dgram ep b) ∧
      (r.got = .foreign ↔ ∃ src b, i.recv = .dgram src b ∧ src ≠ ep) ∧
      (i.recv = .wouldBlock → (v.step j (.up c room ep s since auth) i).1 ≠ .done (.error .io) []) := by
  have hs : (v.step j (.up c room ep s since auth) i) = v.upStep c room ep s since auth i := rfl
  have hr : v.rounds j (.up c room ep s since auth) n (i :: is) =
      if (clientSendTick c s i.retry i.fail i.wb i.net i.nonce).1.failed then []
      else ⟨(clientSendTick c s i.retry i.fail i.wb i.net i.nonce).2.isSome, idleWait (idleSent n (clientSendTick c s i.retry i.fail i.wb i.net i.nonce).2.isSome), i.recv.got ep⟩ ::
        v.rounds j (v.upStep c room ep s since auth i).1 (idleGot (idleSent n (clientSendTick c s i.retry i.fail i.wb i.net i.nonce).2.isSome) (i.recv.got ep)) is := rfl
  rw [hs, hr]
  have hout : (v.upStep c room ep s since auth i).2 = ((clientSendTick c s i.retry i.fail i.wb i.net i.nonce).2.map (·.bytes)).toList.map (ep, ·) := by
    unfold Cli.upStep
    simp only
    repeat' split
    all_goals rfl
  by_cases hf : (clientSendTick c s i.retry i.fail i.wb i.net i.nonce).1.failed = true
  · left
    rw [if_pos hf]
    refine ⟨rfl, ?_⟩
    unfold Cli.upStep
    simp only [hf, if_true]
  · right
    rw [if_neg hf]
    refine ⟨_, _, rfl, ?_, ?_, ?_, ?_⟩
    · rw [hout]
      cases (clientSendTick c s i.retry i.fail i.wb i.net i.nonce).2 <;> simp
    · unfold NetIn.got
      cases i.recv with
      | dgram src b =>
        simp only
        by_cases he : src = ep
        · subst he; simp
        · simp [he]
      | wouldBlock => simp
      | error => simp
    · unfold NetIn.got
      cases i.recv with
      | dgram src b =>
        simp only
        by_cases he : src = ep
        · subst he; simp
        · simp [he]
      | wouldBlock => simp
      | error => simp
    · intro hw
      unfold Cli.upStep
      simp only [hw]
      rw [if_neg hf]
      split <;> simp

/-- **C97**: whenever an uploading client waits for a datagram, then for 3 to 255 milliseconds. -/
theorem c97_bounds {S} (v : Cli S) (j : Job) (t : Nat) (is : List CliIn) : ∀ r ∈ v.uploadRounds j t is, ∀ w, r.wait = some w → 3 ≤ w ∧ w ≤ 255 := by
  intro r hr w hw
  obtain ⟨pre, post, he⟩ := List.append_of_mem hr
  have h := uploadRounds_counted v j t is
  rw [he] at h
  obtain ⟨m, -, h1, -⟩ := counted_append _ _ 0 (by omega) h
  rw [hw] at h1
  have := idleSent_lt m r.sent
  unfold idleWait at h1
  split at h1
  · cases h1; omega
  · cases h1

/-- **C97**: the client does not wait in a round in which it has sent a block, nor in the round after a datagram of the server. -/
theorem c97_prompt {S} (v : Cli S) (j : Job) (t : Nat) (is : List CliIn) (pre post : List SendRound) (a b : SendRound) (h : v.uploadRounds j t is = pre ++ a :: b :: post) :
    (b.sent = true → b.wait = none) ∧ (a.got = .server → b.wait = none) := by
  have hc := uploadRounds_counted v j t is
  rw [h] at hc
  obtain ⟨m, -, -, h2, -⟩ := counted_append _ _ 0 (by omega) hc
  refine ⟨fun g => ?_, fun g => ?_⟩
  · rw [h2, g]; rfl
  · rw [h2, g]
    cases b.sent <;> rfl

/-- **C97**: of any four rounds in a row in which nothing is sent and nothing of the server comes, the client waits in one at least: it never spins. -/
theorem c97_sleeps {S} (v : Cli S) (j : Job) (t : Nat) (is : List CliIn) (pre post : List SendRound) (a b c d : SendRound)
    (h : v.uploadRounds j t is = pre ++ a :: b :: c :: d :: post) (hs : ∀ r ∈ [a, b, c, d], r.sent = false ∧ r.got ≠ .server) :
    ∃ r ∈ [a, b, c, d], r.wait ≠ none := by
  have hc := uploadRounds_counted v j t is
  rw [h] at hc
  obtain ⟨m, hm, h1, h2, h3, h4, -⟩ := counted_append _ _ 0 (by omega) hc
  obtain ⟨a1, a2⟩ := hs a (by simp)
  obtain ⟨b1, b2⟩ := hs b (by simp)
  obtain ⟨c1, c2⟩ := hs c (by simp)
  obtain ⟨d1, -⟩ := hs d (by simp)
  rw [a1] at h1 h2 h3 h4
  rw [b1] at h2 h3 h4
  rw [c1] at h3 h4
  rw [d1] at h4
  have step : ∀ (n : Nat) (g : Got), g ≠ .server → idleSent (idleGot n g) false = (n + 1) % 256 ∨ idleSent (idleGot n g) false = (n + 2) % 256 := by
    intro n g hg
    cases g
    · right; show ((n + 1) % 256 + 1) % 256 = _; omega
    · left; rfl
    · exact absurd rfl hg
  have small : ∀ n, idleWait n = none → n ≤ 2 := by
    intro n hn
    unfold idleWait at hn
    split at hn
    · cases hn
    · omega
  refine Classical.byContradiction fun hn => ?_
  have e1 : a.wait = none := Classical.byContradiction fun x => hn ⟨a, by simp, x⟩
  have e2 : b.wait = none := Classical.byContradiction fun x => hn ⟨b, by simp, x⟩
  have e3 : c.wait = none := Classical.byContradiction fun x => hn ⟨c, by simp, x⟩
  have e4 : d.wait = none := Classical.byContradiction fun x => hn ⟨d, by simp, x⟩
  rw [h1] at e1
  rw [h2] at e2
  rw [h3] at e3
  rw [h4] at e4
  have s1 := small _ e1
  have s2 := small _ e2
  have s3 := small _ e3
  have s4 := small _ e4
  have q0 := idleSent_lt m false
  generalize idleSent m false = n1 at *
  have t1 := step n1 a.got a2
  generalize idleSent (idleGot n1 a.got) false = n2 at *
  have t2 := step n2 b.got b2
  generalize idleSent (idleGot n2 b.got) false = n3 at *
  have t3 := step n3 c.got c2
  generalize idleSent (idleGot n3 c.got) false = n4 at *
  omega

theorem quiet_ge (k : Nat) : ∀ (q : List SendRound) m, m < 256 → Counted m q → q.length = 128 * k → (∀ r ∈ q, r.Quiet) → 16254 * k ≤ (q.map (·.wait.getD 0)).sum := by
  induction k with
  | zero => intro _ _ _ _ _ _; omega
  | succ k ih =>
    intro q m hm hc hl hq
    have hsplit : q.take 128 ++ q.drop 128 = q := List.take_append_drop ..
    have hlt : (q.take 128).length = 128 := by rw [List.length_take]; omega
    have hc' := hc
    rw [← hsplit] at hc'
    have c1 := counted_append_left _ _ _ hc'
    obtain ⟨m', hm', c2⟩ := counted_append _ _ m hm hc'
    have i2 := ih _ m' hm' c2 (by rw [List.length_drop]; omega) fun r hr => hq r (List.mem_of_mem_drop hr)
    have i1 := quiet_sum _ m c1 fun r hr => hq r (List.mem_of_mem_take hr)
    rw [hlt] at i1
    have h0 := quietSum_turn m hm
    have hsum : (q.map (·.wait.getD 0)).sum = ((q.take 128).map (·.wait.getD 0)).sum + ((q.drop 128).map (·.wait.getD 0)).sum := by
      rw [← List.sum_append, ← List.map_append, hsplit]
    omega

/-- **C97**: while nothing happens at all the client may wait more than 16 seconds in any 128 rounds in a row: it goes round less than eight times in a second on the
average, however long this lasts. -/
theorem c97_quiet {S} (v : Cli S) (j : Job) (t : Nat) (is : List CliIn) (pre q post : List SendRound) (k : Nat) (h : v.uploadRounds j t is = pre ++ (q ++ post))
    (hl : q.length = 128 * k) (hq : ∀ r ∈ q, r.Quiet) : 16254 * k ≤ (q.map (·.wait.getD 0)).sum := by
  have hc := uploadRounds_counted v j t is
  rw [h] at hc
  obtain ⟨m, hm, hc⟩ := counted_append _ _ 0 (by omega) hc
  exact quiet_ge k q m hm (counted_append_left _ _ _ hc) hl hq

/-- Specification: the fruitless calls in rounds without activity: there was no block to send in any, and in those without a datagram the wait was in vain too. -/
def Spec.vain (q : List SendRound) : Nat := q.length + (q.filter (·.got = .nothing)).length

/-- Specification: how long the client waits after so many fruitless calls. -/
def Spec.napAfter (calls : Nat) : Option Nat := if 2 < calls % 256 then some (calls % 256) else none

theorem counted_vain (q : List SendRound) (r : SendRound) (post : List SendRound) : ∀ m, m < 256 → Counted m (q ++ r :: post) →
    (∀ x ∈ q, x.sent = false ∧ x.got ≠ .server) → r.sent = false → r.wait = napAfter (m + vain q + 1) := by
  induction q with
  | nil =>
    intro m hm h _ hr
    obtain ⟨h1, -⟩ := h
    rw [h1, hr]
    rfl
  | cons x q ih =>
    intro m hm h hq hr
    obtain ⟨-, h2⟩ := h
    obtain ⟨g1, g2⟩ := hq x (List.mem_cons_self ..)
    have := ih _ (idleGot_lt (idleSent_lt _ _) _) h2 (fun y hy => hq y (List.mem_cons_of_mem _ hy)) hr
    rw [this, g1]
    have e0 : idleSent m false = (m + 1) % 256 := rfl
    cases hg : x.got with
    | server => exact absurd hg g2
    | foreign =>
      have e1 : idleGot (idleSent m false) .foreign = (m + 1) % 256 := rfl
      have e2 : vain (x :: q) = vain q + 1 := by simp [vain, hg]; omega
      rw [e1, e2]
      unfold napAfter
      rw [show ((m + 1) % 256 + vain q + 1) % 256 = (m + (vain q + 1) + 1) % 256 by omega]
    | nothing =>
      have e1 : idleGot (idleSent m false) .nothing = ((m + 1) % 256 + 1) % 256 := rfl
      have e2 : vain (x :: q) = vain q + 2 := by simp [vain, hg]; omega
      rw [e1, e2]
      unfold napAfter
      rw [show (((m + 1) % 256 + 1) % 256 + vain q + 1) % 256 = (m + (vain q + 2) + 1) % 256 by omega]

/-- **C97**, exactly: in a round without a block to send the wait is the number of fruitless calls, modulo 256, since the loop began, or since a datagram of the
server came, or since a block was sent (these two count as one call). -/
theorem c97_exact {S} (v : Cli S) (j : Job) (t : Nat) (is : List CliIn) (q post : List SendRound) (r : SendRound)
    (hq : ∀ x ∈ q, x.sent = false ∧ x.got ≠ .server) (hr : r.sent = false) :
    (v.uploadRounds j t is = q ++ r :: post → r.wait = napAfter (vain q + 1)) ∧
    (∀ pre a, v.uploadRounds j t is = pre ++ a :: (q ++ r :: post) → a.got = .server → r.wait = napAfter (1 + vain q + 1)) ∧
    (∀ pre a, v.uploadRounds j t is = pre ++ a :: (q ++ r :: post) → a.sent = true → a.got = .foreign → r.wait = napAfter (1 + vain q + 1)) ∧
    (∀ pre a, v.uploadRounds j t is = pre ++ a :: (q ++ r :: post) → a.sent = true → a.got = .nothing → r.wait = napAfter (2 + vain q + 1)) := by
  have hc := uploadRounds_counted v j t is
  have after : ∀ pre a, v.uploadRounds j t is = pre ++ a :: (q ++ r :: post) → ∃ m, Counted (idleGot (idleSent m a.sent) a.got) (q ++ r :: post) := by
    intro pre a h
    rw [h] at hc
    obtain ⟨m, -, -, h2⟩ := counted_append _ _ 0 (by omega) hc
    exact ⟨m, h2⟩
  refine ⟨fun h => ?_, fun pre a h hg => ?_, fun pre a h hs hg => ?_, fun pre a h hs hg => ?_⟩
  · rw [h] at hc
    have := counted_vain q r post 0 (by omega) hc hq hr
    rwa [Nat.zero_add] at this
  · obtain ⟨m, h2⟩ := after pre a h
    rw [hg] at h2
    exact counted_vain q r post 1 (by omega) h2 hq hr
  · obtain ⟨m, h2⟩ := after pre a h
    rw [hg, hs] at h2
    exact counted_vain q r post 1 (by omega) h2 hq hr
  · obtain ⟨m, h2⟩ := after pre a h
    rw [hg, hs] at h2
    exact counted_vain q r post 2 (by omega) h2 hq hr

namespace Toy

/-- A round without a datagram in which no retransmission is due. -/
def idle : CliIn := { quiet 0 with retry := false }

/-- A round in which a datagram of a stranger comes. -/
def strangerIdle : CliIn := { hears 0 elsewhere [1] with retry := false }

/-- The rounds of a stalled upload: the block is sent, nothing is confirmed for 128 rounds, then the block is sent again and confirmed. -/
def stalledRounds : List SendRound :=
  (cli none).uploadRounds (up .none) 0 (hear 0 (.ack 0) :: idle :: List.replicate 128 idle ++ [quiet 0, idle, strangerIdle, strangerIdle, idle, idle, idle, hear 0 (.ack 1)])

/-- The hypotheses of `c97_quiet` are met with 128 rounds in which nothing happens; the client may wait 16383 milliseconds in them. -/
example : stalledRounds.length = 137 ∧ ((stalledRounds.drop 1).take 128).all (fun r => !r.sent && r.got = .nothing) = true ∧
    (((stalledRounds.drop 1).take 128).map (·.wait.getD 0)).sum = 16383 := by
  refine ⟨?_, ?_, ?_⟩ <;> decide +kernel

/-- The block is sent twice, without a wait in these rounds (`c97_prompt`). -/
example : (stalledRounds[0]?.map (·.sent)) = some true ∧ (stalledRounds[0]?.bind (·.wait)) = none ∧
    (stalledRounds[129]?.map (·.sent)) = some true ∧ (stalledRounds[129]?.bind (·.wait)) = none := by
  refine ⟨?_, ?_, ?_, ?_⟩ <;> decide +kernel

/-- The hypotheses of `c97_sleeps` are met, also with datagrams of a stranger among the rounds. -/
example : ((stalledRounds.drop 131).take 4).map (·.sent) = [false, false, false, false] ∧
    ((stalledRounds.drop 131).take 4).map (·.got) = [.foreign, .foreign, .nothing, .nothing] ∧
    ((stalledRounds.drop 131).take 4).map (·.wait) = [some 5, some 6, some 7, some 9] := by
  refine ⟨?_, ?_, ?_⟩ <;> decide +kernel

/-- The hypotheses of the last clause of `c97_exact` are met: a block is sent, four rounds are fruitless, the next may wait 11 milliseconds. -/
example : stalledRounds = [] ++ ⟨true, none, .nothing⟩ :: ((stalledRounds.drop 1).take 4 ++ ⟨false, some 11, .nothing⟩ :: stalledRounds.drop 6) ∧
    ((stalledRounds.drop 1).take 4).all (fun r => !r.sent && r.got = .nothing) = true ∧ napAfter (2 + vain ((stalledRounds.drop 1).take 4) + 1) = some 11 := by
  have e : ∀ a b : List SendRound, a.map (fun r => (r.sent, r.wait, r.got)) = b.map (fun r => (r.sent, r.wait, r.got)) → a = b := by
    intro a
    induction a with
    | nil => intro b h; cases b with | nil => rfl | cons => cases h
    | cons x a ih =>
      intro b h
      cases b with
      | nil => cases h
      | cons y b =>
        obtain ⟨x1, x2, x3⟩ := x
        obtain ⟨y1, y2, y3⟩ := y
        simp only [List.map_cons, List.cons.injEq, Prod.mk.injEq] at h
        obtain ⟨⟨rfl, rfl, rfl⟩, h⟩ := h
        rw [ih b h]
  refine ⟨e _ _ ?_, ?_, ?_⟩ <;> decide +kernel

end Toy

end Tftp

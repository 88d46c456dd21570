import Verif.RttMeasure
import Verif.ToyClient
/-
C98 for whole runs of a client: which blocks the sending loop has measured (src/client/sender.rs:164, 174, 218-224, 302, 308).
-/
namespace Tftp
open Spec

/-- One iteration of the client. `early`: what the clock shows when a block goes out; `patience`: `no_feedback_timer` (floating point, not modelled). -/
structure RttIn where
  base : CliIn
  early : Nat
  patience : Nat

/-- The number of the block which the reader hands out in an iteration: src/client/sender.rs:201-209. -/
def CliSt.handsOut : CliSt → CliIn → Option Nat
  | .up c _ _ s _ _, i => match (s.reader.next i.retry i.fail c.cap).2 with
    | .block b => some b.block
    | _ => none
  | _, _ => none

/-- The number of the block which the server confirms in an iteration: src/client/sender.rs:263-299. -/
def CliSt.confirmsBlock : CliSt → CliIn → Option Nat
  | .up c room ep s _ _, i =>
    if (clientSendTick c s i.retry i.fail i.wb i.net i.nonce).1.failed then none
    else match i.recv with
      | .dgram src d =>
        if src = ep then match c.codec.dec (d.take room) with
          | some b => match Packet.fromBytes b with
            | .ok (.ack n) => some n.toNat
            | _ => none
          | none => none
        else none
      | _ => none
  | _, _ => none

/-- `options.window_size` in the sending loop. -/
def CliSt.windowSize : CliSt → Nat
  | .up c _ _ _ _ _ => c.W
  | _ => 0

/-- The client with `block_mapper` (src/client/sender.rs:173) and `last_acknowledged` (164). -/
structure Gauge where
  st : CliSt
  map : Mapper
  acked : Nat

/-- src/client/sender.rs:218-224: a block is handed out; only the last one of the window is measured. -/
def Gauge.send (g : Gauge) (x : RttIn) : Mapper × List RttEv :=
  match g.st.handsOut x.base with
  | some b => ((g.map.index b).1, if g.acked + g.st.windowSize = (g.map.index b).2 then [.sent b x.early x.patience] else [])
  | none => (g.map, [])

/-- src/client/sender.rs:299-310: an acknowledgement. -/
def Gauge.hear (g : Gauge) (m : Mapper) (x : RttIn) : Mapper × Nat × List RttEv :=
  match g.st.confirmsBlock x.base with
  | some b => ((m.index b).1, (m.index b).2, [.acked b x.base.t])
  | none => (m, g.acked, [])

/-- One iteration. -/
def Cli.gaugeStep {S} (v : Cli S) (j : Job) (g : Gauge) (x : RttIn) : Gauge :=
  ⟨(v.step j g.st x.base).1, (g.hear (g.send x).1 x).1, (g.hear (g.send x).1 x).2.1⟩

/-- Some iterations. -/
def Cli.gaugeAfter {S} (v : Cli S) (j : Job) (g : Gauge) (xs : List RttIn) : Gauge := xs.foldl (v.gaugeStep j) g

/-- The calls of the rate control in some iterations. -/
def Cli.rttEvents {S} (v : Cli S) (j : Job) : Gauge → List RttIn → List RttEv
  | _, [] => []
  | g, x :: xs => (g.send x).2 ++ ((g.hear (g.send x).1 x).2.2 ++ v.rttEvents j (v.gaugeStep j g x) xs)

/-- The beginning. -/
def Cli.gaugeStart {S} (v : Cli S) (j : Job) (t : Nat) : Gauge := ⟨.query (v.start j t), Mapper.new, 0⟩

/-- The calls up to the moment at which iteration `x`, after the iterations `xs`, takes a sample. The request counts as block 1, sent at `t0`, its answer as the
confirmation, at `t1`: src/client/sender.rs:95-96, 122-123. -/
def Cli.rttHistory {S} (v : Cli S) (j : Job) (t t0 t1 p : Nat) (xs : List RttIn) (x : RttIn) : List RttEv :=
  [.sent 1 t0 p, .acked 1 t1] ++ (v.rttEvents j (v.gaugeStart j t) xs ++ ((v.gaugeAfter j (v.gaugeStart j t) xs).send x).2)

/-- The sample taken in iteration `x` after the iterations `xs`, if there is one: src/client/sender.rs:308. -/
def Cli.rttSampleAt {S} (v : Cli S) (j : Job) (t t0 t1 p : Nat) (xs : List RttIn) (x : RttIn) : Option Nat :=
  match (v.run j t (xs.map (·.base))).1.confirmsBlock x.base with
  | some b => rttSample t0 (v.rttHistory j t t0 t1 p xs x) b x.base.t
  | none => none

/-! ### Proofs -/

theorem in_flight_append (l1 l2 : List RttEv) (b ts : Nat) (h : InFlight (l1 ++ l2) b ts) :
    InFlight l2 b ts ∨ (∀ e ∈ l2, ¬ IsAck e) ∧ InFlight l1 b ts := by
  obtain ⟨pre, post, p, he, hp⟩ := h
  rcases List.append_eq_append_iff.mp he with ⟨a, h1, h2⟩ | ⟨a, h1, h2⟩
  · left
    exact ⟨a, post, p, h2, hp⟩
  · cases a with
    | nil =>
      left
      exact ⟨[], post, p, by simpa using h2.symm, hp⟩
    | cons e a =>
      right
      rw [List.cons_append, List.cons.injEq] at h2
      obtain ⟨rfl, rfl⟩ := h2
      exact ⟨fun e he => hp e (List.mem_append_right _ he), pre, a, p, h1, fun e he => hp e (List.mem_append_left _ he)⟩

theorem not_in_flight_acked (l : List RttEv) (b' t b ts : Nat) : ¬ InFlight (l ++ [.acked b' t]) b ts := by
  intro h
  rcases in_flight_append _ _ _ _ h with ⟨pre, post, p, he, -⟩ | ⟨h1, -⟩
  · cases pre with
    | nil => cases he
    | cons e pre =>
      rw [List.cons_append, List.cons.injEq] at he
      cases pre <;> cases he.2
  · exact h1 _ (List.mem_cons_self ..) trivial

theorem not_in_flight_nil (b ts : Nat) : ¬ InFlight [] b ts := by
  rintro ⟨pre, post, p, he, -⟩
  cases pre <;> cases he

theorem in_flight_send (g : Gauge) (x : RttIn) (b ts : Nat) (h : InFlight (g.send x).2 b ts) : g.st.handsOut x.base = some b ∧ ts = x.early := by
  unfold Gauge.send at h
  cases hh : g.st.handsOut x.base with
  | none => rw [hh] at h; exact absurd h (not_in_flight_nil _ _)
  | some b' =>
    rw [hh] at h
    simp only at h
    by_cases hw : g.acked + g.st.windowSize = (g.map.index b').2
    · rw [if_pos hw] at h
      obtain ⟨pre, post, p, he, -⟩ := h
      cases pre with
      | nil => simp only [List.nil_append, List.cons.injEq, RttEv.sent.injEq] at he; obtain ⟨⟨rfl, rfl, -⟩, -⟩ := he; exact ⟨rfl, rfl⟩
      | cons e pre =>
        rw [List.cons_append, List.cons.injEq] at he
        cases pre <;> cases he.2
    · rw [if_neg hw] at h
      exact absurd h (not_in_flight_nil _ _)

theorem hear_cases (g : Gauge) (m : Mapper) (x : RttIn) :
    (g.st.confirmsBlock x.base = none ∧ (g.hear m x).2.2 = []) ∨ ∃ b, (g.hear m x).2.2 = [.acked b x.base.t] := by
  unfold Gauge.hear
  cases g.st.confirmsBlock x.base with
  | none => exact .inl ⟨rfl, rfl⟩
  | some b => exact .inr ⟨b, rfl⟩

theorem rtt_silent {S} (v : Cli S) (j : Job) (xs : List RttIn) : ∀ g, (∀ e ∈ v.rttEvents j g xs, ¬ IsAck e) →
    ∀ q1 z q2, xs = q1 ++ z :: q2 → (v.gaugeAfter j g q1).st.confirmsBlock z.base = none := by
  induction xs with
  | nil => intro _ _ q1 _ _ h; cases q1 <;> cases h
  | cons x xs ih =>
    intro g h q1 z q2 he
    have hx : ∀ e ∈ (g.hear (g.send x).1 x).2.2, ¬ IsAck e := fun e he => h e (List.mem_append_right _ (List.mem_append_left _ he))
    cases q1 with
    | nil =>
      cases he
      rcases hear_cases g (g.send x).1 x with ⟨h1, -⟩ | ⟨b, h1⟩
      · exact h1
      · rw [h1] at hx
        exact absurd trivial (hx _ (List.mem_cons_self ..))
    | cons y q1 =>
      rw [List.cons_append, List.cons.injEq] at he
      obtain ⟨rfl, he⟩ := he
      exact ih _ (fun e he => h e (List.mem_append_right _ (List.mem_append_right _ he))) q1 z q2 he

theorem rtt_origin {S} (v : Cli S) (j : Job) (b ts : Nat) (xs : List RttIn) : ∀ g, InFlight (v.rttEvents j g xs) b ts →
    ∃ p y q, xs = p ++ y :: q ∧ (v.gaugeAfter j g p).st.handsOut y.base = some b ∧ ts = y.early ∧
      ∀ q1 z q2, y :: q = q1 ++ z :: q2 → (v.gaugeAfter j g (p ++ q1)).st.confirmsBlock z.base = none := by
  induction xs with
  | nil => intro g h; exact absurd h (not_in_flight_nil _ _)
  | cons x xs ih =>
    intro g h
    unfold Cli.rttEvents at h
    rcases in_flight_append _ _ _ _ h with h | ⟨hn, h⟩
    · rcases in_flight_append _ _ _ _ h with h | ⟨-, h⟩
      · obtain ⟨p, y, q, rfl, h1, h2, h3⟩ := ih _ h
        exact ⟨x :: p, y, q, rfl, h1, h2, h3⟩
      · rcases hear_cases g (g.send x).1 x with ⟨-, h1⟩ | ⟨b', h1⟩
        · rw [h1] at h; exact absurd h (not_in_flight_nil _ _)
        · rw [h1] at h; exact absurd h (not_in_flight_acked [] _ _ _ _)
    · obtain ⟨h1, h2⟩ := in_flight_send g x b ts h
      refine ⟨[], x, xs, rfl, h1, h2, ?_⟩
      intro q1 z q2 he
      refine rtt_silent v j (x :: xs) g ?_ q1 z q2 he
      intro e hm
      unfold Cli.rttEvents at hm
      rcases List.mem_append.mp hm with hm | hm
      · unfold Gauge.send at hm
        cases hh : g.st.handsOut x.base with
        | none => rw [hh] at hm; cases hm
        | some b' =>
          rw [hh] at hm
          simp only at hm
          split at hm
          · rw [List.mem_singleton.mp hm]; exact fun hf => hf
          · cases hm
      · exact hn e hm

theorem gaugeAfter_st {S} (v : Cli S) (j : Job) (xs : List RttIn) : ∀ g, (v.gaugeAfter j g xs).st = (v.runFrom j g.st (xs.map (·.base))).1 := by
  induction xs with
  | nil => intro _; rfl
  | cons x xs ih => intro g; exact ih _

/-- **C98**, what is handed out: a datagram sent in an iteration of the sending loop is the data packet with the number handed out. -/
theorem c98_packets {S} (v : Cli S) (j : Job) (c : Cfg) (room : Nat) (ep : Ep) (s : SendSt) (since : Nat) (auth : Option Bytes) (i : CliIn) (dst : Ep) (d : Bytes)
    (h : (dst, d) ∈ (v.step j (.up c room ep s since auth) i).2) :
    dst = ep ∧ ∃ n data, (CliSt.up c room ep s since auth).handsOut i = some n ∧ c.codec.enc i.nonce (Packet.data (UInt16.ofNat n) data).toBytes = some d := by
  have hout : (v.upStep c room ep s since auth i).2 = ((clientSendTick c s i.retry i.fail i.wb i.net i.nonce).2.map (·.bytes)).toList.map (ep, ·) := by
    unfold Cli.upStep
    simp only
    repeat' split
    all_goals rfl
  have h' : (dst, d) ∈ (v.upStep c room ep s since auth i).2 := h
  rw [hout] at h'
  unfold clientSendTick at h'
  simp only at h'
  unfold CliSt.handsOut
  simp only
  cases hn : (s.reader.next i.retry i.fail c.cap).2 with
  | none => rw [hn] at h'; simp at h'
  | ioErr => rw [hn] at h'; simp only at h'; split at h' <;> simp at h'
  | badBuffer => rw [hn] at h'; simp at h'
  | block b =>
    rw [hn] at h'
    simp only at h'
    unfold Cfg.emit dataPacket at h'
    cases he : c.codec.enc i.nonce (Packet.data (UInt16.ofNat b.block) b.data).toBytes with
    | none => rw [he] at h'; simp at h'
    | some e =>
      rw [he] at h'
      cases hnet : i.net with
      | sent =>
        rw [hnet] at h'
        simp only [Option.map_some, Option.toList_some, List.map_cons, List.map_nil, List.mem_singleton, Prod.mk.injEq] at h'
        obtain ⟨rfl, rfl⟩ := h'
        exact ⟨rfl, b.block, b.data, rfl, he⟩
      | wouldBlock => rw [hnet] at h'; simp at h'
      | error => rw [hnet] at h'; simp at h'

/-- **C98**, what is confirmed: the datagram of the iteration comes from the server's address and is an acknowledgement with this number. -/
theorem c98_acks (c : Cfg) (room : Nat) (ep : Ep) (s : SendSt) (since : Nat) (auth : Option Bytes) (i : CliIn)
    (hs : (clientSendTick c s i.retry i.fail i.wb i.net i.nonce).1.failed = false) (n : Nat) :
    (CliSt.up c room ep s since auth).confirmsBlock i = some n ↔
      ∃ d b k, i.recv = .dgram ep d ∧ c.codec.dec (d.take room) = some b ∧ Packet.fromBytes b = .ok (.ack k) ∧ k.toNat = n := by
  unfold CliSt.confirmsBlock
  simp only
  rw [if_neg (by simp [hs])]
  constructor
  · intro h
    cases hr : i.recv with
    | wouldBlock => rw [hr] at h; cases h
    | error => rw [hr] at h; cases h
    | dgram src d =>
      rw [hr] at h
      simp only at h
      by_cases he : src = ep
      · subst he
        rw [if_pos rfl] at h
        cases hd : c.codec.dec (d.take room) with
        | none => rw [hd] at h; cases h
        | some b =>
          rw [hd] at h
          simp only at h
          split at h
          · rename_i k hk
            cases h
            exact ⟨d, b, k, rfl, hd, hk, rfl⟩
          · cases h
      · rw [if_neg he] at h; cases h
  · rintro ⟨d, b, k, h1, h2, h3, rfl⟩
    rw [h1]
    simp only
    rw [if_pos trivial, h2]
    simp only
    rw [h3]

/-- **C98** for whole runs: if a client takes a sample from the acknowledgement of a block whose number is not 0, then the reader handed out a block of this number in this
iteration or in an earlier one, the sample is the time since then, and from that iteration on no acknowledgement of the server came before this one. -/
theorem c98_run {S} (v : Cli S) (j : Job) (t t0 t1 p : Nat) (xs : List RttIn) (x : RttIn) (b d : Nat) (hb : b ≠ 0)
    (hc : (v.run j t (xs.map (·.base))).1.confirmsBlock x.base = some b) (h : v.rttSampleAt j t t0 t1 p xs x = some d) :
    ((v.run j t (xs.map (·.base))).1.handsOut x.base = some b ∧ d = x.base.t - x.early) ∨
    ∃ pre y q, xs = pre ++ y :: q ∧ (v.run j t (pre.map (·.base))).1.handsOut y.base = some b ∧ d = x.base.t - y.early ∧
      ∀ q1 z q2, y :: q = q1 ++ z :: q2 → (v.run j t ((pre ++ q1).map (·.base))).1.confirmsBlock z.base = none := by
  have hst : ∀ ys, (v.gaugeAfter j (v.gaugeStart j t) ys).st = (v.run j t (ys.map (·.base))).1 := fun ys => gaugeAfter_st v j ys _
  unfold Cli.rttSampleAt at h
  rw [hc] at h
  obtain ⟨ts, hf, rfl⟩ := c98_genuine _ _ _ _ _ hb h
  unfold Cli.rttHistory at hf
  rcases in_flight_append _ _ _ _ hf with hf | ⟨-, hf⟩
  · rcases in_flight_append _ _ _ _ hf with hf | ⟨-, hf⟩
    · obtain ⟨h1, rfl⟩ := in_flight_send _ _ _ _ hf
      rw [hst] at h1
      exact .inl ⟨h1, rfl⟩
    · obtain ⟨pre, y, q, he, h1, rfl, h3⟩ := rtt_origin v j b ts xs _ hf
      rw [hst] at h1
      refine .inr ⟨pre, y, q, he, h1, rfl, ?_⟩
      intro q1 z q2 hz
      rw [← hst]
      exact h3 q1 z q2 hz
  · exact absurd hf (not_in_flight_acked [.sent 1 t0 p] _ _ _ _)

/-! ### Which blocks are measured -/

/-- Specification: the numbers of the blocks handed out in the iterations of a run which starts in `st`. -/
def Spec.numbersOut {S} (v : Cli S) (j : Job) : CliSt → List RttIn → List (Option Nat)
  | _, [] => []
  | st, x :: xs => st.handsOut x.base :: Spec.numbersOut v j (v.step j st x.base).1 xs

/-- Specification: the numbers confirmed by the server in the iterations of a run which starts in `st`. -/
def Spec.numbersIn {S} (v : Cli S) (j : Job) : CliSt → List RttIn → List (Option Nat)
  | _, [] => []
  | st, x :: xs => st.confirmsBlock x.base :: Spec.numbersIn v j (v.step j st x.base).1 xs

/-- Specification: the last number in a list, 0 if there is none. -/
def Spec.lastNumber (l : List (Option Nat)) : Nat := l.foldl (fun a o => o.getD a) 0

theorem index_small {n : Nat} (h : n ≤ 55535) : Mapper.new.index n = (Mapper.new, n) := by
  have : ¬ n > 65535 - 10000 := by omega
  simp [Mapper.index, Mapper.announce, Mapper.new, Mapper.inCurrent, this]

theorem gauge_small {S} (v : Cli S) (j : Job) (xs : List RttIn) : ∀ g : Gauge, g.map = Mapper.new → (∀ n, some n ∈ numbersOut v j g.st xs → n ≤ 55535) →
    (∀ n, some n ∈ numbersIn v j g.st xs → n ≤ 55535) →
    (v.gaugeAfter j g xs).map = Mapper.new ∧ (v.gaugeAfter j g xs).acked = (numbersIn v j g.st xs).foldl (fun a o => o.getD a) g.acked := by
  induction xs with
  | nil => intro g hm _ _; exact ⟨hm, rfl⟩
  | cons x xs ih =>
    intro g hm ho hi
    have h1 : (g.send x).1 = Mapper.new := by
      unfold Gauge.send
      cases hh : g.st.handsOut x.base with
      | none => exact hm
      | some b =>
        simp only
        rw [hm, index_small (ho b (by unfold numbersOut; rw [hh]; exact List.mem_cons_self ..))]
    have h2 : (g.hear (g.send x).1 x).1 = Mapper.new ∧ (g.hear (g.send x).1 x).2.1 = (g.st.confirmsBlock x.base).getD g.acked := by
      unfold Gauge.hear
      rw [h1]
      cases hh : g.st.confirmsBlock x.base with
      | none => exact ⟨rfl, rfl⟩
      | some b =>
        simp only
        rw [index_small (hi b (by unfold numbersIn; rw [hh]; exact List.mem_cons_self ..))]
        exact ⟨rfl, rfl⟩
    have := ih (v.gaugeStep j g x) h2.1 (fun n hn => ho n (List.mem_cons_of_mem _ hn)) (fun n hn => hi n (List.mem_cons_of_mem _ hn))
    refine ⟨this.1, this.2.trans ?_⟩
    show _ = ((g.st.confirmsBlock x.base) :: numbersIn v j (v.step j g.st x.base).1 xs).foldl (fun a o => o.getD a) g.acked
    rw [List.foldl_cons, ← h2.2]
    rfl

/-- **C98**: as long as all numbers are at most 55535 (the first 55535 blocks), a measurement is begun in an iteration exactly if it hands out the last block of the window: the
number confirmed last (0 at first) and the window make up its number. -/
theorem c98_window {S} (v : Cli S) (j : Job) (t : Nat) (xs : List RttIn) (x : RttIn)
    (ho : ∀ n, some n ∈ numbersOut v j (.query (v.start j t)) (xs ++ [x]) → n ≤ 55535) (hi : ∀ n, some n ∈ numbersIn v j (.query (v.start j t)) xs → n ≤ 55535)
    (b e p : Nat) :
    .sent b e p ∈ ((v.gaugeAfter j (v.gaugeStart j t) xs).send x).2 ↔
      (v.run j t (xs.map (·.base))).1.handsOut x.base = some b ∧
        b = lastNumber (numbersIn v j (.query (v.start j t)) xs) + (v.run j t (xs.map (·.base))).1.windowSize ∧ e = x.early ∧ p = x.patience := by
  have happ : ∀ st, numbersOut v j st (xs ++ [x]) = numbersOut v j st xs ++ [(v.runFrom j st (xs.map (·.base))).1.handsOut x.base] := by
    clear ho hi
    induction xs with
    | nil => intro _; rfl
    | cons y ys ih => intro st; exact congrArg (_ :: ·) (ih _)
  rw [happ] at ho
  obtain ⟨h1, h2⟩ := gauge_small v j xs (v.gaugeStart j t) rfl (fun n hn => ho n (List.mem_append_left _ hn)) hi
  have hst : (v.gaugeAfter j (v.gaugeStart j t) xs).st = (v.run j t (xs.map (·.base))).1 := gaugeAfter_st v j xs _
  unfold Gauge.send
  rw [hst, h1, h2]
  have hl : (numbersIn v j (v.gaugeStart j t).st xs).foldl (fun a o => o.getD a) (v.gaugeStart j t).acked = lastNumber (numbersIn v j (.query (v.start j t)) xs) := rfl
  rw [hl]
  cases hh : (v.run j t (xs.map (·.base))).1.handsOut x.base with
  | none => simp
  | some b' =>
    have hb : b' ≤ 55535 := ho b' (List.mem_append_right _ (by
      have : (v.runFrom j (.query (v.start j t)) (xs.map (·.base))).1.handsOut x.base = some b' := hh
      rw [this]; exact List.mem_cons_self ..))
    simp only
    rw [index_small hb]
    by_cases hw : lastNumber (numbersIn v j (.query (v.start j t)) xs) + (v.run j t (xs.map (·.base))).1.windowSize = b'
    · simp only [hw, if_true, List.mem_singleton, RttEv.sent.injEq, Option.some.injEq]
      constructor
      · rintro ⟨rfl, rfl, rfl⟩; exact ⟨rfl, rfl, rfl, rfl⟩
      · rintro ⟨rfl, -, rfl, rfl⟩; exact ⟨rfl, rfl, rfl⟩
    · simp only [hw, if_false, List.not_mem_nil, false_iff]
      rintro ⟨h, h', -⟩
      cases h
      exact hw h'.symm

namespace Toy

/-- An iteration in which a block goes out when the clock shows `e`. -/
def gauged (e : Nat) (i : CliIn) : RttIn := ⟨i, e, 2000⟩

/-- The hypotheses of `c98_run` are met: the block is sent at 6, again at 90, and confirmsBlock at 95: the sample is 89. -/
example : ((cli none).run (up .none) 0 ([gauged 5 (hear 5 (.ack 0)), gauged 6 (quiet 7), gauged 90 (quiet 91)].map (·.base))).1.confirmsBlock (hear 95 (.ack 1)) = some 1 ∧
    (cli none).rttSampleAt (up .none) 0 0 5 2000 [gauged 5 (hear 5 (.ack 0)), gauged 6 (quiet 7), gauged 90 (quiet 91)] (gauged 94 (hear 95 (.ack 1))) = some 89 := by
  refine ⟨?_, ?_⟩ <;> decide +kernel

/-- **C98**, finding, in a run of the client: the server's confirmation of the request comes a second time, before the first block is confirmsBlock: the time since the block was
sent is not measured any more; a third one is taken for a round trip of 994. -/
theorem c98_phantom_run :
    (cli none).rttSampleAt (up .none) 0 0 5 2000 [gauged 5 (hear 5 (.ack 0)), gauged 6 (quiet 7)] (gauged 90 (hear 91 (.ack 0))) = none ∧
    (cli none).rttSampleAt (up .none) 0 0 5 2000 [gauged 5 (hear 5 (.ack 0)), gauged 6 (quiet 7), gauged 90 (hear 91 (.ack 0))]
      { gauged 999 (hear 1000 (.ack 0)) with base := { hear 1000 (.ack 0) with retry := false } } = some 994 := by
  refine ⟨?_, ?_⟩ <;> decide +kernel

/-- An upload of two blocks: the second one is measured as well. The hypotheses of `c98_window` are met. -/
def twoBlocks : Job := ⟨.upload (some 600) (List.replicate 600 7), [97], ⟨512, 80, some 0, .none, 1⟩⟩

example : let xs := [gauged 5 (hear 5 (.ack 0)), gauged 6 (quiet 7), gauged 90 (hear 91 (.ack 1))]
    numbersOut (cli none) twoBlocks (.query ((cli none).start twoBlocks 0)) (xs ++ [gauged 92 (quiet 93)]) = [none, some 1, some 1, some 2] ∧
    numbersIn (cli none) twoBlocks (.query ((cli none).start twoBlocks 0)) xs = [none, none, some 1] ∧
    ((cli none).run twoBlocks 0 (xs.map (·.base))).1.windowSize = 1 ∧
    ((((cli none).gaugeAfter twoBlocks ((cli none).gaugeStart twoBlocks 0) xs).send (gauged 92 (quiet 93))).2.length = 1) := by
  refine ⟨?_, ?_, ?_, ?_⟩ <;> decide +kernel

end Toy

end Tftp

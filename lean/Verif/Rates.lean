import Verif.Bytes
/-
Rate control of the sending client: src/flow_control.rs. Floating point results are inputs (any `u32`), the integer
arithmetic around them is modelled, with overflow (a panic in builds with overflow checks) as `none`.
-/
namespace Tftp

/-- `a * b` for `u16`. -/
def mulU16 (a b : Nat) : Option Nat := if a * b < 65536 then some (a * b) else none

/-- src/flow_control.rs:243-245 `initial_rate`. -/
def initialRate (bs : Nat) : Option Nat := do
  let x ← mulU16 4 bs
  let y ← mulU16 2 bs
  return min x (max y 4380)

/-- Largest `u32`. -/
def maxU32 : Nat := 4294967295

/-- `2_u32.saturating_mul(x)`. -/
def dbl (x : Nat) : Nat := min (2 * x) maxU32

/-- src/flow_control.rs:17-46 `RateControl`, the integer fields which influence the rate, and `total_data_sent`. -/
structure Rate where
  allowed : Nat
  set : Nat × Nat × Nat
  acked : Nat
  sent : Nat
  expired : Bool
  newLoss : Bool
  dataLimited : Bool

/-- src/flow_control.rs:49-70 `new`. -/
def Rate.new : Rate := ⟨maxU32, (maxU32, 0, 0), 0, 0, false, false, false⟩

def max3 (s : Nat × Nat × Nat) : Nat := max s.1 (max s.2.1 s.2.2)

/-- src/flow_control.rs:198-206 `maximize_set`. -/
def maximizeSet (s : Nat × Nat × Nat) (r : Nat) : Nat × Nat × Nat :=
  let m := max3 s
  (if r > m ∨ m = maxU32 then r else m, 0, 0)

/-- src/flow_control.rs:208-212 `update_set`. -/
def updateSet (s : Nat × Nat × Nat) (r : Nat) : Nat × Nat × Nat := (r, s.1, s.2.1)

/-- The floating point results in `calculate_transmit_rate`, converted to `u32`: received bytes per second, 85% of it, whether
the loss rate is positive, the average rate for that loss. -/
structure RateIo where
  received : Nat
  lowered : Nat
  loss : Bool
  average : Nat

/-- src/flow_control.rs:125-191 `calculate_transmit_rate`. `none`: overflow. -/
def Rate.calculate (r : Rate) (bs : Nat) (io : RateIo) : Option Rate := do
  let init ← initialRate bs
  let (received, r) := if r.expired then (init, r) else (io.received, if r.acked = 0 then { r with allowed := 1 } else r)
  let (set, limit) :=
    if r.dataLimited then
      if r.newLoss || r.expired then
        let s := maximizeSet (r.set.1 / 2, r.set.2.1 / 2, r.set.2.2 / 2) io.lowered
        (s, max3 s)
      else
        let s := maximizeSet r.set received
        (s, dbl (max3 s))
    else
      let s := updateSet r.set received
      (s, dbl (max3 s))
  let allowed := if io.loss then max (min io.average limit) (bs / 64) else max (min (dbl r.allowed) limit) init
  return { r with allowed, set, acked := 0, expired := false, newLoss := false, dataLimited := false }

/-- src/flow_control.rs:116-123 `timeout_interval`, in any unit: `rtt` is four times the estimated round trip time (`none`: no
estimate yet), `rate` the time for two blocks at the allowed rate, a division by that rate. -/
def timeoutInterval (minRetry : Nat) (rtt : Option Nat) (rate : Nat) : Nat :=
  match rtt with
  | none => minRetry
  | some x => max (max x rate) minRetry

/-- What the sending loop does with the rate control (src/client/sender.rs:94-338). -/
inductive RateOp
  | calculate (io : RateIo)
  /-- `acknowledged_data` -/
  | acked (n : Nat)
  /-- `data_sent` -/
  | sent (n : Nat)
  /-- `increment_errors`: src/flow_control.rs:73-76 -/
  | loss
  /-- the timer found expired in `start_rtt`: src/flow_control.rs:83-87 -/
  | expired

/-- One operation. `total_acknoledged_data` is a `u32` which is reset by each calculation, `total_data_sent` one which never is
(src/flow_control.rs:107-114). -/
def Rate.op (bs : Nat) (r : Rate) : RateOp → Option Rate
  | .calculate io => r.calculate bs io
  | .acked n => if r.acked + n ≤ maxU32 then some { r with acked := r.acked + n } else none
  | .sent n => if r.sent + n ≤ maxU32 then some { r with sent := r.sent + n } else none
  | .loss => some { r with newLoss := true }
  | .expired => some { r with expired := true }

def Rate.run (bs : Nat) (r : Rate) (ops : List RateOp) : Option Rate := ops.foldlM (Rate.op bs) r

/-! ### C45 -/

/-- **C45**: for every supported block size (in fact all up to 16383) the initial rate is computed without overflow, is between two
and four blocks, and at least the smaller of 4380 bytes and four blocks. -/
theorem c45_initial_rate (bs : Nat) (h : bs ≤ 16383) :
    ∃ r, initialRate bs = some r ∧ 2 * bs ≤ r ∧ r ≤ 4 * bs ∧ min 4380 (4 * bs) ≤ r := by
  refine ⟨min (4 * bs) (max (2 * bs) 4380), ?_, ?_, ?_, ?_⟩
  · simp only [initialRate, mulU16, if_pos (show 4 * bs < 65536 by omega), if_pos (show 2 * bs < 65536 by omega)]
    rfl
  · omega
  · omega
  · omega

/-- The bound is sharp. -/
theorem c45_initial_rate_overflow : initialRate 16384 = none := by decide

theorem rate_op_allowed {bs : Nat} (hb : bs ≤ 16383) {r r' : Rate} {op : RateOp} (h0 : min (bs / 64) (2 * bs) ≤ r.allowed)
    (h : r.op bs op = some r') : min (bs / 64) (2 * bs) ≤ r'.allowed := by
  cases op with
  | calculate io =>
    obtain ⟨i, h1, h2, -⟩ := c45_initial_rate bs hb
    simp only [Rate.op, Rate.calculate, h1, Option.bind_eq_bind, Option.bind_some, Option.pure_def, Option.some.injEq] at h
    subst h
    simp only
    cases io.loss
    · simp only [Bool.false_eq_true, if_false]; omega
    · simp only [if_true]; omega
  | acked n => simp only [Rate.op] at h; split at h <;> cases h; exact h0
  | sent n => simp only [Rate.op] at h; split at h <;> cases h; exact h0
  | loss => cases h; exact h0
  | expired => cases h; exact h0

/-- **C45**: whatever the floating point measurements give, in every history of the rate control for blocks of 64 to 16383 bytes
the allowed rate stays at least one byte per second (at least 1/64 block per second). So the division by it in the retry interval
is defined. -/
theorem c45_rate_positive (bs : Nat) (hb : 64 ≤ bs ∧ bs ≤ 16383) (ops : List RateOp) (r : Rate)
    (h : Rate.new.run bs ops = some r) : bs / 64 ≤ r.allowed ∧ 0 < r.allowed := by
  have key : ∀ (ops : List RateOp) (r0 : Rate), min (bs / 64) (2 * bs) ≤ r0.allowed → r0.run bs ops = some r →
      min (bs / 64) (2 * bs) ≤ r.allowed := by
    intro ops
    induction ops with
    | nil => intro r0 h0 h; cases h; exact h0
    | cons op ops ih =>
      intro r0 h0 h
      simp only [Rate.run, List.foldlM_cons, Option.bind_eq_bind, Option.bind_eq_some_iff] at h
      obtain ⟨r1, h1, h2⟩ := h
      exact ih r1 (rate_op_allowed hb.2 h0 h1) h2
  have := key ops Rate.new (by simp only [Rate.new, maxU32]; omega) h
  omega

/-- **C45**: the client's retry interval is the configured or negotiated one until a round trip has been measured; from then on it is the
smallest time which is not below that one, four round trips, and the time for two blocks at the allowed rate. -/
theorem c45_retry_interval (minRetry : Nat) (rtt : Option Nat) (rate : Nat) :
    (rtt = none → timeoutInterval minRetry rtt rate = minRetry) ∧
    ∀ x, rtt = some x → ∀ t, timeoutInterval minRetry rtt rate ≤ t ↔ minRetry ≤ t ∧ x ≤ t ∧ rate ≤ t := by
  refine ⟨fun h => by rw [h]; rfl, fun x h t => ?_⟩
  rw [h]
  simp only [timeoutInterval]
  omega

/-- **C45**: in one calculation without losses the allowed rate at most doubles, or is the initial one; after losses it is at most the
average rate computed for them, or 1/64 block. -/
theorem c45_growth (bs : Nat) (r r' : Rate) (io : RateIo) (h : r.op bs (.calculate io) = some r') :
    r'.allowed ≤ if io.loss then max io.average (bs / 64) else max (2 * max r.allowed 1) (4 * bs) := by
  simp only [Rate.op, Rate.calculate, Option.bind_eq_bind, Option.bind_eq_some_iff, Option.pure_def, Option.some.injEq] at h
  obtain ⟨i, hi, rfl⟩ := h
  have h4 : i ≤ 4 * bs := by
    simp only [initialRate, mulU16] at hi
    split at hi
    · split at hi
      · simp only [Option.bind_eq_bind, Option.bind_some, Option.pure_def, Option.some.injEq] at hi; omega
      · simp at hi
    · simp at hi
  simp only
  cases io.loss
  · simp only [Bool.false_eq_true, if_false, dbl]
    split
    · simp only; omega
    · split <;> simp only <;> omega
  · simp only [if_true]; omega

def Spec.isCalculate : RateOp → Bool
  | .calculate _ => true
  | _ => false

theorem rate_run_append (bs : Nat) (r : Rate) (a b : List RateOp) : r.run bs (a ++ b) = (r.run bs a).bind (·.run bs b) := by
  unfold Rate.run
  rw [List.foldlM_append]
  rfl

theorem rate_op_other {bs : Nat} {r r' : Rate} {op : RateOp} (hc : Spec.isCalculate op = false) (h : r.op bs op = some r') :
    r'.set = r.set ∧ r'.allowed = r.allowed ∧ r'.dataLimited = r.dataLimited := by
  cases op with
  | calculate io => cases hc
  | acked n => simp only [Rate.op] at h; split at h <;> cases h; exact ⟨rfl, rfl, rfl⟩
  | sent n => simp only [Rate.op] at h; split at h <;> cases h; exact ⟨rfl, rfl, rfl⟩
  | loss => cases h; exact ⟨rfl, rfl, rfl⟩
  | expired => cases h; exact ⟨rfl, rfl, rfl⟩

theorem rate_run_other {bs : Nat} {ops : List RateOp} (hc : ∀ op ∈ ops, Spec.isCalculate op = false) {r r' : Rate} (h : r.run bs ops = some r') :
    r'.set = r.set ∧ r'.allowed = r.allowed ∧ r'.dataLimited = r.dataLimited := by
  induction ops generalizing r with
  | nil => cases h; exact ⟨rfl, rfl, rfl⟩
  | cons op ops ih =>
    simp only [Rate.run, List.foldlM_cons, Option.bind_eq_bind, Option.bind_eq_some_iff] at h
    obtain ⟨r1, h1, h2⟩ := h
    have a := rate_op_other (hc op List.mem_cons_self) h1
    have b := ih (fun y hy => hc y (List.mem_cons_of_mem op hy)) h2
    exact ⟨b.1.trans a.1, b.2.1.trans a.2.1, b.2.2.trans a.2.2⟩

theorem rate_calculate_set {bs : Nat} {r r' : Rate} {io : RateIo} (hd : r.dataLimited = false) (h : r.op bs (.calculate io) = some r') :
    r'.dataLimited = false ∧ r'.set.2 = (r.set.1, r.set.2.1) ∧ r'.set.1 ≤ max io.received (4 * bs) ∧
    r'.allowed ≤ max (2 * max3 r'.set) (4 * bs) := by
  simp only [Rate.op, Rate.calculate, Option.bind_eq_bind, Option.bind_eq_some_iff, Option.pure_def, Option.some.injEq] at h
  obtain ⟨i, hi, rfl⟩ := h
  have h4 : i ≤ 4 * bs := by
    simp only [initialRate, mulU16] at hi
    split at hi
    · split at hi
      · simp only [Option.bind_eq_bind, Option.bind_some, Option.pure_def, Option.some.injEq] at hi; omega
      · simp at hi
    · simp at hi
  have e : (if r.expired = true then (i, r) else (io.received, if r.acked = 0 then { r with allowed := 1 } else r)).2.dataLimited = false := by
    split
    · exact hd
    · simp only; split <;> exact hd
  have e2 : (if r.expired = true then (i, r) else (io.received, if r.acked = 0 then { r with allowed := 1 } else r)).2.set = r.set := by
    split
    · rfl
    · simp only; split <;> rfl
  have e3 : (if r.expired = true then (i, r) else (io.received, if r.acked = 0 then { r with allowed := 1 } else r)).1 ≤ max io.received (4 * bs) := by
    split
    · simp only; omega
    · simp only; omega
  generalize (if r.expired = true then (i, r) else (io.received, if r.acked = 0 then { r with allowed := 1 } else r)) = x at e e2 e3
  obtain ⟨x1, x2⟩ := x
  simp only at e e2 e3
  simp only [e, Bool.false_eq_true, if_false, updateSet, e2, dbl, true_and]
  refine ⟨e3, ?_⟩
  cases io.loss
  · simp only [Bool.false_eq_true, if_false]; omega
  · simp only [if_true]; omega

theorem rate_run_limited {bs : Nat} {ops : List RateOp} {r r' : Rate} (hd : r.dataLimited = false) (h : r.run bs ops = some r') :
    r'.dataLimited = false := by
  induction ops generalizing r with
  | nil => cases h; exact hd
  | cons op ops ih =>
    simp only [Rate.run, List.foldlM_cons, Option.bind_eq_bind, Option.bind_eq_some_iff] at h
    obtain ⟨r1, h1, h2⟩ := h
    refine ih ?_ h2
    cases hc : Spec.isCalculate op with
    | false => rw [(rate_op_other hc h1).2.2]; exact hd
    | true =>
      cases op with
      | calculate io => exact (rate_calculate_set hd h1).1
      | _ => cases hc

/-- **C45**: from the third calculation on the allowed rate is at most twice the largest of the last three rates at which the server has
received, or twice the largest initial rate. -/
theorem c45_limited_by_receiver (bs : Nat) (ops0 ops1 ops2 ops3 : List RateOp) (a b c : RateIo) (r : Rate)
    (h1 : ∀ op ∈ ops1, Spec.isCalculate op = false) (h2 : ∀ op ∈ ops2, Spec.isCalculate op = false)
    (h3 : ∀ op ∈ ops3, Spec.isCalculate op = false)
    (h : Rate.new.run bs (ops0 ++ .calculate a :: (ops1 ++ .calculate b :: (ops2 ++ .calculate c :: ops3))) = some r) :
    r.allowed ≤ 2 * max (max a.received (max b.received c.received)) (4 * bs) := by
  have split : ∀ {x : Rate} {p : List RateOp} {io : RateIo} {q : List RateOp}, x.run bs (p ++ .calculate io :: q) = some r →
      ∃ y z, x.run bs p = some y ∧ y.op bs (.calculate io) = some z ∧ z.run bs q = some r := by
    intro x p io q hx
    rw [rate_run_append, Option.bind_eq_some_iff] at hx
    obtain ⟨y, hy, hx⟩ := hx
    simp only [Rate.run, List.foldlM_cons, Option.bind_eq_bind, Option.bind_eq_some_iff] at hx
    obtain ⟨z, hz, hx⟩ := hx
    exact ⟨y, z, hy, hz, hx⟩
  obtain ⟨y1, z1, g1, g2, h⟩ := split h
  obtain ⟨y2, z2, g3, g4, h⟩ := split h
  obtain ⟨y3, z3, g5, g6, h⟩ := split h
  have d1 := rate_run_limited rfl g1
  have k1 := rate_calculate_set d1 g2
  have l1 := rate_run_other h1 g3
  have k2 := rate_calculate_set (by rw [l1.2.2]; exact k1.1) g4
  have l2 := rate_run_other h2 g5
  have k3 := rate_calculate_set (by rw [l2.2.2]; exact k2.1) g6
  have l3 := rate_run_other h3 h
  have m3 := k3.2.2.2
  have e1 : z3.set.2.1 = z2.set.1 := by rw [k3.2.1, l2.1]
  have e2 : z3.set.2.2 = z1.set.1 := by rw [k3.2.1, l2.1, k2.2.1, l1.1]
  have b1 := k1.2.2.1
  have b2 := k2.2.2.1
  have b3 := k3.2.2.1
  rw [l3.2.1]
  simp only [max3, e1, e2] at m3
  omega

/-- Bytes sent in an operation. -/
def Spec.bytesSent : RateOp → Nat
  | .sent n => n
  | _ => 0

/-- Finding (C45): `total_data_sent` is a `u32` which is never reset: sending 2^32 bytes overflows it, whatever happens in
between (a panic with overflow checks, as in debug builds; otherwise harmless, the value is not used). -/
theorem c45_sent_overflow (bs : Nat) (ops : List RateOp) (h : (ops.map Spec.bytesSent).sum > maxU32) :
    Rate.new.run bs ops = none := by
  have key : ∀ (ops : List RateOp) (r0 r : Rate), r0.sent ≤ maxU32 → r0.run bs ops = some r →
      r0.sent + (ops.map Spec.bytesSent).sum ≤ maxU32 := by
    intro ops
    induction ops with
    | nil => intro r0 r h0 h; simpa using h0
    | cons op ops ih =>
      intro r0 r h0 h
      simp only [Rate.run, List.foldlM_cons, Option.bind_eq_bind, Option.bind_eq_some_iff] at h
      obtain ⟨r1, h1, h2⟩ := h
      have hs : r1.sent = r0.sent + Spec.bytesSent op ∧ r1.sent ≤ maxU32 := by
        cases op with
        | calculate io =>
          simp only [Rate.op, Rate.calculate, Option.bind_eq_bind, Option.bind_eq_some_iff, Option.pure_def, Option.some.injEq] at h1
          obtain ⟨i, -, rfl⟩ := h1
          simp only
          split
          · exact ⟨rfl, h0⟩
          · split <;> exact ⟨rfl, h0⟩
        | acked n => simp only [Rate.op] at h1; split at h1 <;> cases h1; exact ⟨rfl, h0⟩
        | sent n => simp only [Rate.op] at h1; split at h1 <;> cases h1; exact ⟨rfl, by assumption⟩
        | loss => cases h1; exact ⟨rfl, h0⟩
        | expired => cases h1; exact ⟨rfl, h0⟩
      have := ih r1 r hs.2 h2
      simp only [List.map_cons, List.sum_cons]
      omega
  cases hr : Rate.new.run bs ops with
  | none => rfl
  | some r =>
    have := key ops Rate.new r (by decide) hr
    simp only [Rate.new] at this
    omega

/-- Bytes acknowledged since the last calculation of a history. -/
def Spec.pending (ops : List RateOp) : Nat := ops.foldl (fun n op => match op with
  | .calculate _ => 0
  | .acked k => n + k
  | _ => n) 0

theorem pending_snoc (ops : List RateOp) (op : RateOp) : Spec.pending (ops ++ [op]) = match op with
    | .calculate _ => 0
    | .acked k => Spec.pending ops + k
    | _ => Spec.pending ops := by
  simp only [Spec.pending, List.foldl_append, List.foldl_cons, List.foldl_nil]

theorem rate_run_snoc (bs : Nat) (r : Rate) (ops : List RateOp) (op : RateOp) :
    r.run bs (ops ++ [op]) = (r.run bs ops).bind (·.op bs op) := by
  rw [rate_run_append]
  congr 1
  funext x
  simp [Rate.run]

/-- **C45**: nothing else overflows: with blocks of up to 16383 bytes, as long as fewer than 2^32 bytes have been sent in total and
acknowledged between two calculations, every operation of the rate control succeeds. -/
theorem c45_no_overflow (bs : Nat) (hb : bs ≤ 16383) (ops : List RateOp) (hs : (ops.map Spec.bytesSent).sum ≤ maxU32)
    (ha : ∀ p q, ops = p ++ q → Spec.pending p ≤ maxU32) :
    ∃ r, Rate.new.run bs ops = some r ∧ r.sent = (ops.map Spec.bytesSent).sum ∧ r.acked = Spec.pending ops := by
  obtain ⟨i, hi, -⟩ := c45_initial_rate bs hb
  revert hs ha
  rw [← List.reverse_reverse ops]
  induction ops.reverse with
  | nil => exact fun _ _ => ⟨Rate.new, rfl, rfl, rfl⟩
  | cons op l ih =>
    intro hs ha
    rw [List.reverse_cons] at hs ha ⊢
    have hs' : (l.reverse.map Spec.bytesSent).sum + Spec.bytesSent op ≤ maxU32 := by simpa using hs
    obtain ⟨r, h1, h2, h3⟩ := ih (by omega) (fun p q hpq => ha p (q ++ [op]) (by rw [hpq, List.append_assoc]))
    have hp := ha (l.reverse ++ [op]) [] (by simp)
    rw [rate_run_snoc, h1, Option.bind_some]
    have hsum : ((l.reverse ++ [op]).map Spec.bytesSent).sum = r.sent + Spec.bytesSent op := by rw [h2]; simp
    rw [hsum]
    rw [pending_snoc, ← h3] at hp
    rw [pending_snoc, ← h3]
    clear hs ha ih hsum
    cases op with
    | calculate io =>
      simp only [Rate.op, Rate.calculate, hi, Option.bind_eq_bind, Option.bind_some, Option.pure_def, Option.some.injEq, exists_eq_left']
      refine ⟨?_, trivial⟩
      simp only [Spec.bytesSent, Nat.add_zero]
      split
      · rfl
      · split <;> rfl
    | acked n => exact ⟨{ r with acked := r.acked + n }, by simp only [Rate.op]; rw [if_pos hp], rfl, rfl⟩
    | sent n =>
      exact ⟨{ r with sent := r.sent + n }, by simp only [Rate.op]; rw [if_pos (by rw [h2]; exact hs')], rfl, rfl⟩
    | loss => exact ⟨_, rfl, rfl, rfl⟩
    | expired => exact ⟨_, rfl, rfl, rfl⟩

/-- A history: a window acknowledged, a loss, nothing acknowledged for a period. -/
example : (Rate.new.run 512 [.sent 2048, .acked 2048, .calculate ⟨10000, 8500, false, 0⟩, .loss, .calculate ⟨0, 0, true, 3⟩]).map (·.allowed) =
    some 8 := by decide

/-- The hypotheses of `c45_limited_by_receiver` and `c45_no_overflow` are met: three calculations, after which the rate of 5000 bytes received
in the second one is still what limits it. -/
example : (Rate.new.run 512 ([.sent 512, .acked 512] ++ .calculate ⟨4000, 3400, false, 0⟩ :: ([.acked 512] ++ .calculate ⟨5000, 4250, false, 0⟩ ::
      ([.sent 512, .acked 512] ++ .calculate ⟨3000, 2550, false, 0⟩ :: [.loss])))).map (·.allowed) = some 10000 ∧
    ([RateOp.sent 512, .acked 512, .calculate ⟨4000, 3400, false, 0⟩, .acked 512].map Spec.bytesSent).sum = 512 ∧
    Spec.pending [RateOp.sent 512, .acked 512, .calculate ⟨4000, 3400, false, 0⟩, .acked 500] = 500 := by decide

end Tftp

import Verif.ReaderApi
/-
C98: which round trip times the rate control of an uploading client measures (src/flow_control.rs:80-105 `start_rtt`, `end_rtt`; called in
src/client/sender.rs:96 and 123 for the request and its answer, as number 1, in 219-224 for the last block of a window and in 308 for every acknowledgement). The average made of the samples is floating point and not modelled.
-/
namespace Tftp

/-- src/flow_control.rs:21-22: `rtt_for_packet` (0: none) and `current_rtt` (the time shown when it was started). -/
structure Rtt where
  block : Nat
  since : Nat

/-- src/flow_control.rs:51, 56: created at time `t`. -/
def Rtt.new (t : Nat) : Rtt := ⟨0, t⟩

/-- src/flow_control.rs:80-90 `start_rtt` at time `t`; `patience`: `no_feedback_timer`. (That the timer expired also changes the rate, see Rates.lean.) -/
def Rtt.start (r : Rtt) (block t patience : Nat) : Rtt :=
  let r := if t - r.since ≥ patience then { r with block := 0 } else r
  if r.block ≠ 0 then r else ⟨block, t⟩

/-- src/flow_control.rs:92-105 `end_rtt` at time `t`: the sample. -/
def Rtt.stop (r : Rtt) (block t : Nat) : Rtt × Option Nat := ({ r with block := 0 }, if r.block = block then some (t - r.since) else none)

/-- What happens: the last block of a window is sent (for the first time or again), an acknowledgement arrives (the request and its answer count as block 1). Blocks have the numbers they have in packets. -/
inductive RttEv
  | sent (block t patience : Nat)
  | acked (block t : Nat)

def Rtt.step (r : Rtt) : RttEv → Rtt
  | .sent b t p => r.start b t p
  | .acked b t => (r.stop b t).1

/-- The sample taken when the acknowledgement of `block` arrives at time `t` after these events; `t0`: the beginning. -/
def rttSample (t0 : Nat) (evs : List RttEv) (block t : Nat) : Option Nat := ((evs.foldl Rtt.step (Rtt.new t0)).stop block t).2

/-! ### Specification -/

/-- An acknowledgement of any block. -/
def Spec.IsAck : RttEv → Prop
  | .acked .. => True
  | .sent .. => False

/-- `evs` is a history in which the block was sent at time `ts` and no acknowledgement has come since. -/
def Spec.InFlight (evs : List RttEv) (block ts : Nat) : Prop :=
  ∃ pre post patience, evs = pre ++ .sent block ts patience :: post ∧ ∀ e ∈ post, ¬ IsAck e

/-- No block is measured: nothing has happened yet, or an acknowledgement was the last. -/
def Spec.Settled (evs : List RttEv) : Prop := evs = [] ∨ ∃ pre b t, evs = pre ++ [.acked b t]

open Spec

theorem rtt_snoc (t0 : Nat) (evs : List RttEv) (e : RttEv) : (evs ++ [e]).foldl Rtt.step (Rtt.new t0) = (evs.foldl Rtt.step (Rtt.new t0)).step e := by
  rw [List.foldl_append]; rfl

/-- Induction from the end of a history. -/
theorem events_snoc_induction {P : List RttEv → Prop} (h0 : P []) (h : ∀ l e, P l → P (l ++ [e])) (l : List RttEv) : P l := by
  have : ∀ l : List RttEv, P l.reverse := by
    intro l
    induction l with
    | nil => exact h0
    | cons e l ih => rw [List.reverse_cons]; exact h _ e ih
  have := this l.reverse
  rwa [List.reverse_reverse] at this

theorem rtt_inv (t0 : Nat) (evs : List RttEv) : ∀ r, evs.foldl Rtt.step (Rtt.new t0) = r → r.block ≠ 0 → InFlight evs r.block r.since := by
  refine events_snoc_induction (P := fun evs => ∀ r, evs.foldl Rtt.step (Rtt.new t0) = r → r.block ≠ 0 → InFlight evs r.block r.since) ?_ ?_ evs
  · rintro r rfl h
    exact absurd rfl h
  · intro l e ih r hr h
    rw [rtt_snoc] at hr
    have old : ∀ b s, InFlight l b s → ¬ IsAck e → InFlight (l ++ [e]) b s := by
      rintro b s ⟨pre, post, p, rfl, hp⟩ he
      refine ⟨pre, post ++ [e], p, by simp, ?_⟩
      intro x hx
      rcases List.mem_append.mp hx with hx | hx
      · exact hp x hx
      · rw [List.mem_singleton.mp hx]; exact he
    cases e with
    | acked b t =>
      subst hr
      exact absurd rfl h
    | sent b t p =>
      have new : InFlight (l ++ [.sent b t p]) b t := ⟨l, [], p, rfl, fun _ hx => by cases hx⟩
      generalize hq : l.foldl Rtt.step (Rtt.new t0) = q at hr
      unfold Rtt.step Rtt.start at hr
      simp only at hr
      by_cases hx : t - q.since ≥ p
      · rw [if_pos hx] at hr
        simp only [ne_eq, not_true_eq_false, if_false] at hr
        subst hr
        exact new
      · rw [if_neg hx] at hr
        by_cases hb : q.block ≠ 0
        · rw [if_pos hb] at hr
          subst hr
          exact old _ _ (ih q hq hb) fun hf => hf
        · rw [if_neg hb] at hr
          subst hr
          exact new

/-- **C98**: a sample taken from the acknowledgement of a block whose number is not 0 is the time since a block of this number was sent, and no other acknowledgement
came in between. -/
theorem c98_genuine (t0 : Nat) (evs : List RttEv) (block t d : Nat) (hb : block ≠ 0) (h : rttSample t0 evs block t = some d) :
    ∃ ts, InFlight evs block ts ∧ d = t - ts := by
  unfold rttSample Rtt.stop at h
  simp only at h
  by_cases hx : (evs.foldl Rtt.step (Rtt.new t0)).block = block
  · rw [if_pos hx] at h
    have := rtt_inv t0 evs _ rfl (by rw [hx]; exact hb)
    rw [hx] at this
    exact ⟨_, this, by cases h; rfl⟩
  · rw [if_neg hx] at h; cases h

theorem settled_zero (t0 : Nat) (evs : List RttEv) (h : Settled evs) : (evs.foldl Rtt.step (Rtt.new t0)).block = 0 := by
  rcases h with rfl | ⟨pre, b, t, rfl⟩
  · rfl
  · rw [rtt_snoc]; rfl

/-- **C98**: when no block is measured and one is sent (not number 0), it is measured from now on, whatever is sent before the patience is over: an acknowledgement of
it gives the time since it was sent first, one of any other block gives no sample. -/
theorem c98_measured (t0 : Nat) (pre post : List RttEv) (block ts p t : Nat) (hb : block ≠ 0) (hpre : Settled pre)
    (hpost : ∀ e ∈ post, ∃ b' t' p', e = .sent b' t' p' ∧ t' - ts < p') (other : Nat) (ho : other ≠ block) :
    rttSample t0 (pre ++ .sent block ts p :: post) block t = some (t - ts) ∧ rttSample t0 (pre ++ .sent block ts p :: post) other t = none := by
  have key : (pre ++ .sent block ts p :: post).foldl Rtt.step (Rtt.new t0) = ⟨block, ts⟩ := by
    rw [List.foldl_append, List.foldl_cons]
    have h0 := settled_zero t0 pre hpre
    generalize pre.foldl Rtt.step (Rtt.new t0) = q at h0
    have h1 : q.step (.sent block ts p) = ⟨block, ts⟩ := by
      unfold Rtt.step Rtt.start
      simp only
      by_cases hx : ts - q.since ≥ p
      · rw [if_pos hx, if_neg (by simp)]
      · rw [if_neg hx, if_neg (by simp [h0])]
    rw [h1]
    clear h1 h0
    induction post with
    | nil => rfl
    | cons e post ih =>
      obtain ⟨b', t', p', rfl, hlt⟩ := hpost e (List.mem_cons_self ..)
      have h2 : Rtt.step ⟨block, ts⟩ (.sent b' t' p') = ⟨block, ts⟩ := by
        unfold Rtt.step Rtt.start
        simp only
        rw [if_neg (show ¬ t' - ts ≥ p' by omega), if_pos (show (Rtt.mk block ts).block ≠ 0 from hb)]
      rw [List.foldl_cons, h2]
      exact ih fun e he => hpost e (List.mem_cons_of_mem _ he)
  unfold rttSample
  rw [key]
  unfold Rtt.stop
  simp only
  exact ⟨by simp, if_neg (Ne.symm ho)⟩

/-- **C98**: when an acknowledgement has come the measurement is over: until a block is sent, no acknowledgement of a block whose number is not 0 gives a sample. -/
theorem c98_once (t0 : Nat) (evs : List RttEv) (hs : Settled evs) (block t : Nat) (hb : block ≠ 0) : rttSample t0 evs block t = none := by
  unfold rttSample Rtt.stop
  simp only
  rw [settled_zero t0 evs hs]
  exact if_neg (Ne.symm hb)

/-- **C98**, finding: whenever no block is measured, an acknowledgement of block 0 (a repeated confirmation of the request, or of block 65536) is taken for a round trip:
the sample is the time since the last measurement began, however long this is ago, although no block 0 was sent. -/
theorem c98_phantom (t0 : Nat) (evs : List RttEv) (hs : Settled evs) (t : Nat) :
    ∃ since, rttSample t0 evs 0 t = some (t - since) ∧ (since = t0 ∨ ∃ b p, .sent b since p ∈ evs) := by
  have origin : ∀ evs : List RttEv, (evs.foldl Rtt.step (Rtt.new t0)).since = t0 ∨ ∃ b p, .sent b (evs.foldl Rtt.step (Rtt.new t0)).since p ∈ evs := by
    intro evs
    refine events_snoc_induction (P := fun evs => (evs.foldl Rtt.step (Rtt.new t0)).since = t0 ∨ ∃ b p, .sent b (evs.foldl Rtt.step (Rtt.new t0)).since p ∈ evs) (Or.inl rfl) ?_ evs
    intro l e ih
    rw [rtt_snoc]
    generalize l.foldl Rtt.step (Rtt.new t0) = q at ih
    have old : q.since = t0 ∨ ∃ b p, .sent b q.since p ∈ l ++ [e] := by
      rcases ih with h | ⟨b, p, h⟩
      · exact .inl h
      · exact .inr ⟨b, p, List.mem_append_left _ h⟩
    cases e with
    | acked b t => exact old
    | sent b t p =>
      unfold Rtt.step Rtt.start
      simp only
      by_cases hx : t - q.since ≥ p
      · rw [if_pos hx, if_neg (by simp)]
        exact .inr ⟨b, p, by simp⟩
      · rw [if_neg hx]
        by_cases hb : q.block ≠ 0
        · rw [if_pos hb]; exact old
        · rw [if_neg hb]
          exact .inr ⟨b, p, by simp⟩
  refine ⟨_, ?_, origin evs⟩
  unfold rttSample Rtt.stop
  simp only
  rw [settled_zero t0 evs hs]
  exact if_pos rfl

/-- **C98**, finding: a block with number 0 (65536, 131072, ...) is measured from its last sending, not from its first, also when the patience is not over (contrast with
`c98_measured`): if it is repeated although its acknowledgement is on the way, the sample is too small. -/
theorem c98_zero_restarts (t0 : Nat) (pre post : List RttEv) (ts p t : Nat) (hpre : Settled pre) (hpost : ∀ e ∈ post, ∃ t' p', e = .sent 0 t' p') :
    rttSample t0 (pre ++ (post ++ [.sent 0 ts p])) 0 t = some (t - ts) := by
  have key : ∀ q : Rtt, q.block = 0 → (post.foldl Rtt.step q).block = 0 := by
    clear hpre
    induction post with
    | nil => intro q h; exact h
    | cons e post ih =>
      intro q h
      obtain ⟨t', p', rfl⟩ := hpost e (List.mem_cons_self ..)
      refine ih (fun e he => hpost e (List.mem_cons_of_mem _ he)) _ ?_
      unfold Rtt.step Rtt.start
      simp only
      by_cases hx : t' - q.since ≥ p'
      · rw [if_pos hx, if_neg (by simp)]
      · rw [if_neg hx, if_neg (by simp [h])]
  have h0 := key _ (settled_zero t0 pre hpre)
  have hl : (pre ++ (post ++ [RttEv.sent 0 ts p])).foldl Rtt.step (Rtt.new t0) = ⟨0, ts⟩ := by
    rw [List.foldl_append, List.foldl_append]
    generalize post.foldl Rtt.step (pre.foldl Rtt.step (Rtt.new t0)) = q at h0
    show q.step (.sent 0 ts p) = _
    unfold Rtt.step Rtt.start
    simp only
    by_cases hx : ts - q.since ≥ p
    · rw [if_pos hx, if_neg (by simp)]
    · rw [if_neg hx, if_neg (by simp [h0])]
  unfold rttSample
  rw [hl]
  unfold Rtt.stop
  simp

/-- Block 65536 is sent at 10 and again at 90; the acknowledgement of the first sending comes at 95: a round trip of 5 is noted. -/
example : rttSample 0 ([.acked 65535 5] ++ ([.sent 0 10 2000] ++ [.sent 0 90 2000])) 0 95 = some 5 :=
  c98_zero_restarts 0 [.acked 65535 5] [.sent 0 10 2000] 90 2000 95 (.inr ⟨[], 65535, 5, rfl⟩) (by intro e he; rw [List.mem_singleton.mp he]; exact ⟨10, 2000, rfl⟩)

/-- Block 1 is sent at 10 and again at 90, confirmed at 95: a round trip of 85. One second later the confirmation of the request comes again: a round trip of 1085. -/
example : rttSample 0 [.sent 1 10 2000, .sent 1 90 2000] 1 95 = some 85 ∧ rttSample 0 [.sent 1 10 2000, .sent 1 90 2000, .acked 1 95] 0 1095 = some 1085 := by
  decide

/-- The hypotheses of `c98_genuine`, `c98_measured` and `c98_once` are met. -/
example : rttSample 0 ([.acked 0 5] ++ .sent 1 10 2000 :: [.sent 1 90 2000]) 1 95 = some (95 - 10) ∧ rttSample 0 ([.acked 0 5] ++ .sent 1 10 2000 :: [.sent 1 90 2000]) 2 95 = none ∧
    Settled [.acked 0 5] :=
  have h : Settled [.acked 0 5] := .inr ⟨[], 0, 5, rfl⟩
  have m := c98_measured 0 [.acked 0 5] [.sent 1 90 2000] 1 10 2000 95 (by decide) h
    (by intro e he; rw [List.mem_singleton.mp he]; exact ⟨1, 90, 2000, rfl, by decide⟩) 2 (by decide)
  ⟨m.1, m.2, h⟩

end Tftp

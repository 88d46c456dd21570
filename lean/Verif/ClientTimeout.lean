import Verif.ClientRetry
/-
C68: the clock of a client's transfer (src/client/sender.rs:153, 273-279, 300; src/client/receiver.rs:172, 190-196, 244): a
transfer is given up if and only if it has made no progress for longer than the request timeout.
-/
namespace Tftp

/-! ### Specification -/

/-- The client is transferring: its request has been accepted. -/
def Spec.transferring : CliSt → Bool
  | .up .. => true
  | .down .. => true
  | _ => false

/-- The client has ended with a timeout error. -/
def Spec.timedOut : CliSt → Bool
  | .done (.error .timeout) _ => true
  | _ => false

/-- The client has ended with an I/O error. -/
def Spec.ioFailed : CliSt → Bool
  | .done (.error .io) _ => true
  | _ => false

/-- An iteration which takes the client from `s` to `s'` is progress: the transfer begins; an upload gets an acknowledgement from
the server; a download stores one more block. -/
def Spec.ClientProgress (s : CliSt) (i : CliIn) (s' : CliSt) : Prop := match s, s' with
  | .query _, .up .. => True
  | .query _, .down .. => True
  | .up c room ep _ _ _, .up .. =>
    ∃ d b n, i.recv = .dgram ep d ∧ c.codec.dec (d.take room) = some b ∧ Packet.fromBytes b = .ok (.ack n)
  | .down _ _ _ s _ _, .down _ _ _ s' _ _ => s.w.written < s'.w.written
  | _, _ => False

/-- The state before iteration `k`. -/
def Cli.before {S} (v : Cli S) (j : Job) (t0 : Nat) (is : List CliIn) (k : Nat) : CliSt := (v.run j t0 (is.take k)).1

/-! ### Proof -/

theorem before_succ {S} (v : Cli S) (j : Job) (t0 : Nat) (is : List CliIn) (k : Nat) (hk : k < is.length) :
    v.before j t0 is (k + 1) = (v.step j (v.before j t0 is k) is[k]).1 := by
  unfold Cli.before Cli.run
  rw [List.take_succ_eq_append_getElem hk, runFrom_append]
  rfl

/-- Since when the client waits for progress. -/
def CliSt.since : CliSt → Option Nat
  | .up _ _ _ _ t _ => some t
  | .down _ _ _ _ t _ => some t
  | _ => none

theorem accepted_since {S} (v : Cli S) (j : Job) (ep ack o rk first) (i : CliIn) :
    (v.accepted j ep ack o rk first i).1.since = none ∨ (v.accepted j ep ack o rk first i).1.since = some i.t := by
  unfold Cli.accepted
  simp only
  (repeat' split) <;> simp [CliSt.since]

theorem query_since {S} (v : Cli S) (j : Job) (q : Query) (i : CliIn) :
    (v.queryStep j q i).1.since = none ∨ (v.queryStep j q i).1.since = some i.t := by
  unfold Cli.queryStep
  simp only
  split
  · exact .inl rfl
  · split
    · exact .inl rfl
    · split <;> exact .inl rfl
    · split
      · exact .inl rfl
      · split
        · exact .inl rfl
        · split
          · exact .inl rfl
          · split
            · exact .inl rfl
            · exact .inl rfl
            · exact accepted_since v j _ _ _ _ _ i

/-- What one iteration does with the clock. -/
theorem step_since {S} (v : Cli S) (j : Job) (s : CliSt) (i : CliIn) (t : Nat) (h : (v.step j s i).1.since = some t) :
    (Spec.ClientProgress s i (v.step j s i).1 ∧ t = i.t) ∨ (¬ Spec.ClientProgress s i (v.step j s i).1 ∧ s.since = some t) := by
  cases s with
  | query q =>
    left
    have := query_since v j q i
    simp only [Cli.step] at h ⊢
    rw [h] at this
    refine ⟨?_, by simpa using this⟩
    generalize (v.queryStep j q i).1 = s' at h
    cases s' <;> simp [CliSt.since, Spec.ClientProgress] at h ⊢
  | done r f => cases h
  | up c room ep s since auth =>
    simp only [Cli.step] at h ⊢
    unfold Cli.upStep at h ⊢
    simp only at h ⊢
    split at h
    · cases h
    rename_i hf
    rw [if_neg hf]
    cases hr : i.recv with
    | error => rw [hr] at h; cases h
    | wouldBlock =>
      rw [hr] at h
      simp only at h
      split at h
      · cases h
      · rename_i hl
        simp only [if_neg hl]
        right
        refine ⟨?_, h⟩
        simp only [Spec.ClientProgress, hr]
        rintro ⟨_, _, _, hx, _⟩
        cases hx
    | dgram src d =>
      rw [hr] at h
      simp only at h ⊢
      split at h
      · cases h
      rename_i hd
      rw [if_neg hd]
      split at h
      · rename_i hs
        rw [if_pos hs]
        right
        refine ⟨?_, h⟩
        simp only [Spec.ClientProgress, hr]
        rintro ⟨_, _, _, hx, _⟩
        cases hx
        exact hs rfl
      rename_i hs
      rw [if_neg hs]
      split at h
      · cases h
      rename_i hf2
      rw [if_neg hf2]
      split at h
      · cases h
      rename_i hf3
      rw [if_neg hf3]
      have hs : src = ep := Classical.not_not.mp hs
      subst hs
      simp only [CliSt.since, Option.some.injEq] at h
      have key : c.isAck (d.take room) = true ↔ ∃ b n, c.codec.dec (d.take room) = some b ∧ Packet.fromBytes b = .ok (.ack n) := by
        unfold Cfg.isAck
        cases c.codec.dec (d.take room) with
        | none => simp
        | some b =>
          simp only
          split
          · rename_i n hn
            simp [hn]
          · rename_i hn
            simp only [Bool.false_eq_true, Option.some.injEq, false_iff]
            rintro ⟨_, n, rfl, hx⟩
            exact hn _ hx
      by_cases ha : c.isAck (d.take room) = true
      · rw [if_pos ha] at h
        obtain ⟨b, n, h1, h2⟩ := key.mp ha
        exact .inl ⟨⟨d, b, n, hr, h1, h2⟩, h.symm⟩
      · rw [if_neg ha] at h
        refine .inr ⟨?_, by rw [← h]; rfl⟩
        rintro ⟨d', b, n, hx, h1, h2⟩
        rw [hr] at hx
        cases hx
        exact ha (key.mpr ⟨b, n, h1, h2⟩)
  | down c room ep s since auth =>
    simp only [Cli.step] at h ⊢
    unfold Cli.downStep at h ⊢
    cases hr : i.recv with
    | error => rw [hr] at h; cases h
    | wouldBlock =>
      rw [hr] at h
      simp only at h
      split at h
      · cases h
      · rename_i hl
        simp only [if_neg hl]
        exact .inr ⟨Nat.lt_irrefl _, h⟩
    | dgram src d =>
      rw [hr] at h
      simp only at h ⊢
      split at h
      · cases h
      rename_i hd
      rw [if_neg hd]
      split at h
      · rename_i hs
        rw [if_pos hs]
        exact .inr ⟨Nat.lt_irrefl _, h⟩
      rename_i hs
      rw [if_neg hs]
      split at h
      · cases h
      rename_i hf2
      rw [if_neg hf2]
      split at h
      · cases h
      rename_i hf3
      rw [if_neg hf3]
      simp only [CliSt.since, Option.some.injEq] at h
      split at h
      · rename_i hw
        exact .inl ⟨hw, h.symm⟩
      · rename_i hw
        exact .inr ⟨hw, by rw [← h]; rfl⟩

/-- The clock is the time of the latest progress. -/
theorem since_progress {S} (v : Cli S) (j : Job) (t0 : Nat) (is : List CliIn) (k : Nat) (hk : k ≤ is.length) (t : Nat)
    (h : (v.before j t0 is k).since = some t) :
    ∃ m, ∃ hm : m < k, is[m].t = t ∧ Spec.ClientProgress (v.before j t0 is m) is[m] (v.before j t0 is (m + 1)) ∧
      ∀ n, ∀ hn : n < k, m < n → ¬ Spec.ClientProgress (v.before j t0 is n) is[n] (v.before j t0 is (n + 1)) := by
  induction k generalizing t with
  | zero => cases h
  | succ k ih =>
    have e := before_succ v j t0 is k hk
    rw [e] at h
    rcases step_since v j _ _ t h with ⟨h1, h2⟩ | ⟨h1, h2⟩
    · refine ⟨k, Nat.lt_succ_self k, h2.symm, by rw [e]; exact h1, fun n hn hmn => by omega⟩
    · obtain ⟨m, hm, h3, h4, h5⟩ := ih (by omega) t h2
      refine ⟨m, by omega, h3, h4, fun n hn hmn => ?_⟩
      by_cases hnk : n = k
      · subst hnk
        rw [e]
        exact h1
      · exact h5 n (by omega) hmn

theorem transferring_since {s : CliSt} (h : Spec.transferring s = true) : ∃ t, s.since = some t := by
  cases s <;> first | exact ⟨_, rfl⟩ | cases h

/-- The end of a transfer by timeout, in terms of the clock. -/
theorem step_timeout {S} (v : Cli S) (j : Job) (s : CliSt) (i : CliIn) (t : Nat) (h : s.since = some t) :
    (Spec.timedOut (v.step j s i).1 = true → i.recv = .wouldBlock ∧ i.t - t > v.cfg.requestTimeout) ∧
    (i.recv = .wouldBlock → i.t - t > v.cfg.requestTimeout →
      Spec.timedOut (v.step j s i).1 = true ∨ Spec.ioFailed (v.step j s i).1 = true) := by
  cases s with
  | query q => cases h
  | done r f => cases h
  | up c room ep s since auth =>
    cases h
    simp only [Cli.step, Cli.upStep]
    split
    · exact ⟨fun h => (by cases h), fun _ _ => .inr rfl⟩
    cases hr : i.recv with
    | error => exact ⟨fun h => (by cases h), fun h => (by cases h)⟩
    | wouldBlock =>
      simp only
      split
      · rename_i hl
        exact ⟨fun _ => ⟨trivial, hl⟩, fun _ _ => .inl rfl⟩
      · rename_i hl
        exact ⟨fun h => (by cases h), fun _ h => absurd h hl⟩
    | dgram src d =>
      refine ⟨fun h => ?_, fun h => (by cases h)⟩
      simp only at h
      (repeat' split at h) <;> cases h
  | down c room ep s since auth =>
    cases h
    simp only [Cli.step, Cli.downStep]
    cases hr : i.recv with
    | error => exact ⟨fun h => (by cases h), fun h => (by cases h)⟩
    | wouldBlock =>
      simp only
      split
      · rename_i hl
        exact ⟨fun _ => ⟨trivial, hl⟩, fun _ _ => .inl rfl⟩
      · rename_i hl
        exact ⟨fun h => (by cases h), fun _ h => absurd h hl⟩
    | dgram src d =>
      refine ⟨fun h => ?_, fun h => (by cases h)⟩
      simp only at h
      (repeat' split at h) <;> cases h

/-- **C68**: a transfer which has made progress within the request timeout is never given up for lack of time, whatever the network
and the server do: if iteration `k` ends a transfer with a timeout error, nothing has arrived in it, and every progress lies
longer than the timeout in the past. -/
theorem c68_never_early {S} (v : Cli S) (j : Job) (t0 : Nat) (is : List CliIn) (hmono : is.Pairwise (·.t ≤ ·.t)) (k : Nat)
    (hk : k < is.length) (htr : Spec.transferring (v.before j t0 is k) = true) (hend : Spec.timedOut (v.before j t0 is (k + 1)) = true) :
    is[k].recv = .wouldBlock ∧ ∀ m, ∀ hm : m < k, Spec.ClientProgress (v.before j t0 is m) is[m] (v.before j t0 is (m + 1)) →
      is[k].t - is[m].t > v.cfg.requestTimeout := by
  obtain ⟨t, ht⟩ := transferring_since htr
  rw [before_succ v j t0 is k hk] at hend
  obtain ⟨h1, h2⟩ := (step_timeout v j _ _ t ht).1 hend
  refine ⟨h1, fun m hm hp => ?_⟩
  obtain ⟨m', hm', he, -, h5⟩ := since_progress v j t0 is k (by omega) t ht
  have hle : is[m].t ≤ is[m'].t := by
    by_cases e : m = m'
    · subst e; exact Nat.le_refl _
    · have : ¬ m' < m := fun hlt => h5 m hm hlt hp
      exact List.pairwise_iff_getElem.mp hmono m m' (by omega) (by omega) (by omega)
  omega

/-- **C68**: a transfer without progress for longer than the request timeout ends at the first iteration in which nothing arrives (with a timeout
error, or an I/O error if the file or the socket fails just then): the hypothesis is that the latest progress, which there always
is, lies longer than the timeout in the past. -/
theorem c68_gives_up {S} (v : Cli S) (j : Job) (t0 : Nat) (is : List CliIn) (k : Nat)
    (hk : k < is.length) (htr : Spec.transferring (v.before j t0 is k) = true) (hq : is[k].recv = .wouldBlock)
    (hold : ∀ m, ∀ hm : m < k, Spec.ClientProgress (v.before j t0 is m) is[m] (v.before j t0 is (m + 1)) →
      is[k].t - is[m].t > v.cfg.requestTimeout) :
    Spec.timedOut (v.before j t0 is (k + 1)) = true ∨ Spec.ioFailed (v.before j t0 is (k + 1)) = true := by
  obtain ⟨t, ht⟩ := transferring_since htr
  rw [before_succ v j t0 is k hk]
  obtain ⟨m, hm, he, h4, -⟩ := since_progress v j t0 is k (by omega) t ht
  have := hold m hm h4
  exact (step_timeout v j _ _ _ ht).2 hq (by omega)

end Tftp

import Verif.EndPieces
/-
C54: the acceptance of a request is sent once, so its loss can not be repaired. (The finding itself, a download cut short, is
`c54_lost_acceptance_truncates` in ToyEnd.lean.)
-/
namespace Tftp

variable {S : SigScheme}

theorem emit_dec {c : Cfg} {n : Nat} {t : Option Nat} {p : Packet} {d : Dgram} (h : c.emit n t p = some d) : c.codec.dec d.bytes = some p.toBytes := by
  unfold Cfg.emit at h
  simp only [Option.map_eq_some_iff] at h
  obtain ⟨b, h1, rfl⟩ := h
  exact c.codec.dec_enc _ _ _ h1

theorem sendTick_payload (c : Cfg) (s : SendSt) (r f : Bool) (net : SendRes) (n : Nat) {d : Dgram}
    (h : (serverSendTick c s r f net n).2 = some d) : ∃ p, c.codec.dec d.bytes = some p.toBytes ∧ Spec.Payload p := by
  unfold serverSendTick at h
  simp only at h
  split at h
  · cases h
  all_goals
    split at h
    · exact ⟨_, emit_dec h, trivial⟩
    · cases h

theorem serverRecv_payload (c : Cfg) (s : RecvSt) (dg : Bytes) (io : WriteIo) (ok : Bool) (n : Nat) {d : Dgram}
    (h : (serverRecv c s dg io ok n).2 = some d) : ∃ p, c.codec.dec d.bytes = some p.toBytes ∧ Spec.Payload p := by
  unfold serverRecv at h
  split at h
  · cases h
  · split at h
    · simp only at h
      split at h
      · split at h
        · exact ⟨_, emit_dec h, trivial⟩
        · cases h
      · repeat' split at h
        all_goals first
          | exact ⟨_, emit_dec h, trivial⟩
          | cases h
          | (simp only at h; split at h <;> first | exact ⟨_, emit_dec h, trivial⟩ | cases h)
    · cases h
    · cases h

theorem life_payload (v : Srv S) (stops : Bool) (c : Conn) (e : LifeEv) :
    (∀ d ∈ (v.lifeStep stops (some c) e).2, ∃ p, (v.transfer c).codec.dec d = some p.toBytes ∧ Spec.Payload p) ∧
    ∀ c', (v.lifeStep stops (some c) e).1 = some c' → c'.opts = c.opts ∧ c'.enc = c.enc := by
  cases e with
  | start t dg io => exact ⟨(fun _ h => nomatch h), fun c' h => by cases h; exact ⟨rfl, rfl⟩⟩
  | drop => exact ⟨(fun _ h => nomatch h), fun c' h => by cases h⟩
  | tick t io =>
    simp only [Srv.lifeStep]
    split
    · unfold Srv.sendBlock
      split
      · exact ⟨(fun _ h => nomatch h), fun c' h => by cases h; exact ⟨rfl, rfl⟩⟩
      · constructor
        · intro d hd
          simp only [Option.mem_toList, Option.map_eq_some_iff] at hd
          obtain ⟨g, h1, rfl⟩ := hd
          have := sendTick_payload _ _ _ _ _ _ h1
          have ht : v.transfer (if c.retryDue t = true then { c with mult := min 255 (c.mult + 2) } else c) = v.transfer c := by
            split
            · exact transfer_eq v rfl rfl
            · rfl
          rw [ht] at this
          exact this
        · intro c' h
          simp only [Option.some.injEq] at h
          subst h
          constructor <;> (simp only; split <;> rfl)
    · exact ⟨(fun _ h => nomatch h), fun c' h => by cases h; exact ⟨rfl, rfl⟩⟩
  | recv t dg io =>
    simp only [Srv.lifeStep]
    split
    · exact ⟨(fun _ h => nomatch h), fun c' h => by cases h; exact ⟨rfl, rfl⟩⟩
    · unfold Srv.handle
      split
      · constructor
        · intro d hd
          simp only at hd
          split at hd <;> cases hd
        · intro c' h
          simp only [Option.some.injEq] at h
          subst h
          split <;> exact ⟨rfl, rfl⟩
      · constructor
        · intro d hd
          simp only [Option.mem_toList, Option.map_eq_some_iff] at hd
          obtain ⟨g, h1, rfl⟩ := hd
          exact serverRecv_payload _ _ _ _ _ _ h1
        · intro c' h
          cases h
          exact ⟨rfl, rfl⟩
  | check t io =>
    simp only [Srv.lifeStep]
    constructor
    · intro d hd
      unfold Srv.timeout at hd
      split at hd
      · cases hd
      · split at hd
        · cases hd
        · simp only [Option.mem_toList] at hd
          split at hd
          · exact ⟨_, (v.transfer c).codec.dec_enc _ _ _ hd, trivial⟩
          · cases hd
    · intro c' h
      split at h
      · cases h
      · cases h; exact ⟨rfl, rfl⟩

/-- **C54**, the part which holds for every run: once a request has been accepted, the connection sends only data, acknowledgements and
errors under the negotiated protection until it ends, whatever happens (repetitions of the request included, which reach the main socket,
`start`, or the connection, `recv`). The acceptance is never sent again. -/
theorem c54_acceptance_sent_once_partial (v : Srv S) (stops : Bool) (c : Conn) (es : List LifeEv)
    (hlive : ∀ k, k < es.length → (v.lifeRun stops (some c) (es.take k)).1.isSome = true) :
    ∀ d ∈ (v.lifeRun stops (some c) es).2, ∃ p, (v.transfer c).codec.dec d = some p.toBytes ∧ Spec.Payload p := by
  induction es generalizing c with
  | nil => intro d h; cases h
  | cons e r ih =>
    intro d hd
    simp only [Srv.lifeRun, List.mem_append] at hd
    obtain ⟨h1, h2⟩ := life_payload v stops c e
    rcases hd with hd | hd
    · exact h1 d hd
    · cases hx : (v.lifeStep stops (some c) e).1 with
      | none =>
        cases r with
        | nil => cases hd
        | cons e2 r2 =>
          have := hlive 1 (by simp)
          simp [Srv.lifeRun, hx] at this
      | some c' =>
        rw [hx] at hd
        obtain ⟨ho, he⟩ := h2 c' hx
        rw [← transfer_eq v ho he]
        refine ih c' (fun k hk => ?_) d hd
        have := hlive (k + 1) (by simp; omega)
        simpa [Srv.lifeRun, hx] using this

end Tftp

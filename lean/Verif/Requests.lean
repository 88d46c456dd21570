import Verif.ClientTimeout
import Verif.Sizes
/-
C70: the request says what the user asked for (src/client/sender.rs:83-103, src/client/receiver.rs:77-84,
src/client/connection.rs:61-73, 109-158, src/client/extensions.rs:54-115).
-/
namespace Tftp

/-! ### Specification -/

/-- The options which belong into the request for a job: each one only if it differs from what TFTP assumes without it. `known`: the
server's key is known, then `protocol` becomes `full`. -/
def Spec.demand {S : SigScheme} (j : Job) (known : Bool) (session : Bytes) (auth : Option (AuthKey S)) : Exts
  | .blockSize => if j.opts.blockSize = 512 then none else some (decimal j.opts.blockSize)
  | .windowSize => if j.opts.window = 1 then none else some (decimal j.opts.window)
  | .timeout => if j.opts.retry = 80 ∨ j.opts.retry < 1000 then none else some (decimal (j.opts.retry / 1000))
  | .transferSize => match j.task with
    | .upload (some (n + 1)) _ => some (decimal (n + 1))
    | _ => j.opts.fileSize.map decimal
  | .encryptionLevel => if j.opts.level = .none then none else
      some (if known = true ∧ j.opts.level = .protocol then Level.full.text else j.opts.level.text)
  | .sessionPublicKey => if j.opts.level = .none then none else some (encodeKey session)
  | .authPublicKey => if j.opts.level = .none then none else auth.map (encodeKey ·.pub)
  | .signature => if j.opts.level = .none then none else auth.map fun a => encodeKey (a.sign session)

/-- Iteration `i` has received an error message from the server's host with which a server refuses options. -/
def Spec.refusesOptions (server : Ep) (i : CliIn) : Prop :=
  ∃ src d n code msg, i.recv = .dgram src d ∧ src.ip = server.ip ∧ Packet.fromBytes (d.take n) = .ok (.error code msg) ∧
    (code = .illegalOperation ∨ code = .undefined)

/-! ### Proof -/

theorem requestOpts_demand {S} (v : Cli S) (j : Job) :
    createExtensions (v.requestOpts j) (⟨v.sessionPub, v.cfg.privateKey⟩ : InitialKeys S) =
      Spec.demand j v.cfg.remoteKey.isSome v.sessionPub v.cfg.privateKey := by
  rw [createExtensions_eq]
  have hl : (v.initialSock j.opts).2 = if v.cfg.remoteKey.isSome = true ∧ j.opts.level = .protocol then { j.opts with level := .full } else j.opts := by
    unfold Cli.initialSock
    split
    · rename_i h
      rw [if_neg (by rw [h]; rintro ⟨-, h⟩; cases h)]
    · split
      · rename_i h; rw [h]; simp
      · rename_i h; rw [h]; simp
  have hs : (v.requestOpts j).fileSize = match j.task with
      | .upload (some (n + 1)) _ => some (n + 1)
      | _ => j.opts.fileSize := by
    unfold Cli.requestOpts
    rw [hl]
    cases j.task with
    | download => simp only; split <;> rfl
    | upload n f =>
      cases n with
      | none => simp only; split <;> rfl
      | some n =>
        cases n with
        | zero => simp only [Nat.lt_irrefl, gt_iff_lt, if_false]; split <;> rfl
        | succ n => simp
  have ho : (v.requestOpts j).blockSize = j.opts.blockSize ∧ (v.requestOpts j).window = j.opts.window ∧ (v.requestOpts j).retry = j.opts.retry ∧
      (v.requestOpts j).level = if v.cfg.remoteKey.isSome = true ∧ j.opts.level = .protocol then .full else j.opts.level := by
    unfold Cli.requestOpts
    rw [hl]
    (repeat' split) <;> exact ⟨rfl, rfl, rfl, rfl⟩
  have hn : (v.requestOpts j).level = .none ↔ j.opts.level = .none := by
    rw [ho.2.2.2]
    split
    · rename_i h; rw [h.2]; decide
    · rfl
  funext e
  cases e with
  | blockSize => simp only [Spec.request, Spec.demand, ho.1]
  | windowSize => simp only [Spec.request, Spec.demand, ho.2.1]
  | timeout =>
    simp only [Spec.request, Spec.demand, ho.2.2.1]
    have : j.opts.retry / 1000 = 0 ↔ j.opts.retry < 1000 := by omega
    simp only [this]
  | transferSize =>
    simp only [Spec.request, Spec.demand, hs]
    split <;> rfl
  | encryptionLevel =>
    simp only [Spec.request, Spec.demand, hn]
    split
    · rfl
    · rw [ho.2.2.2]
      split <;> rfl
  | sessionPublicKey => simp only [Spec.request, Spec.demand, hn]
  | authPublicKey => simp only [Spec.request, Spec.demand, hn]
  | signature => simp only [Spec.request, Spec.demand, hn]

theorem demand_text {S : SigScheme} (j : Job) (known : Bool) (session : Bytes) (auth : Option (AuthKey S)) :
    ∀ k x, Spec.demand j known session auth k = some x → Spec.Text x := by
  intro k x h
  cases k <;> simp only [Spec.demand] at h
  · split at h <;> cases h; exact text_decimal _
  · split at h <;> cases h; exact text_decimal _
  · split at h
    · cases h; exact text_decimal _
    · rw [Option.map_eq_some_iff] at h
      obtain ⟨n, -, rfl⟩ := h
      exact text_decimal n
  · split at h <;> cases h
    split
    · exact (text_level .full).2
    · exact (text_level _).2
  · split at h <;> cases h; exact text_decimal _
  · split at h <;> cases h; exact text_key _
  · split at h
    · cases h
    · rw [Option.map_eq_some_iff] at h
      obtain ⟨n, -, rfl⟩ := h
      exact text_key _
  · split at h
    · cases h
    · rw [Option.map_eq_some_iff] at h
      obtain ⟨n, -, rfl⟩ := h
      exact text_key _

theorem accepted_not_query {S} (v : Cli S) (j : Job) (ep ack o rk first) (i : CliIn) (q : Query) :
    (v.accepted j ep ack o rk first i).1 ≠ .query q := by
  unfold Cli.accepted
  simp only
  intro h
  (repeat' split at h) <;> cases h

/-- The extensions in the request of a client. -/
theorem query_exts {S} (v : Cli S) (j : Job) (t0 : Nat) (is : List CliIn) (k : Nat) (hk : k ≤ is.length) (q : Query)
    (hq : v.before j t0 is k = .query q) :
    q.exts = (v.start j t0).exts ∨ (q.exts = Exts.empty ∧ j.opts.level = .none ∧ ∃ m, ∃ hm : m < k, Spec.refusesOptions v.cfg.endpoint is[m]) := by
  induction k generalizing q with
  | zero => cases hq; exact .inl rfl
  | succ k ih =>
    rw [before_succ v j t0 is k hk] at hq
    cases hb : v.before j t0 is k with
    | query q0 =>
      have ih := ih (by omega) q0 hb
      have lift : q.exts = q0.exts → q.exts = (v.start j t0).exts ∨
          (q.exts = Exts.empty ∧ j.opts.level = .none ∧ ∃ m, ∃ hm : m < k + 1, Spec.refusesOptions v.cfg.endpoint is[m]) := by
        intro e
        rw [e]
        rcases ih with h | ⟨h1, h2, m, hm, h3⟩
        · exact .inl h
        · exact .inr ⟨h1, h2, m, by omega, h3⟩
      rw [hb] at hq
      simp only [Cli.step, Cli.queryStep] at hq
      split at hq
      · cases hq
      · split at hq
        · cases hq
        · split at hq
          · cases hq
          · cases hq; exact lift rfl
        · rename_i src d hr
          split at hq
          · cases hq
          · rename_i b hd
            split at hq
            · cases hq; exact lift rfl
            · rename_i hip
              split at hq
              · cases hq
              · split at hq
                · cases hq
                · rename_i hrep
                  cases hq
                  refine .inr ⟨rfl, ?_⟩
                  unfold Cli.reply at hrep
                  split at hrep
                  · split at hrep <;> cases hrep
                  · split at hrep <;> cases hrep
                  · split at hrep <;> cases hrep
                  · rename_i code msg hcode
                    split at hrep
                    · rename_i hc
                      have hlev : j.opts.level = .none := by
                        have := hc.2.2
                        unfold Cli.requestOpts Cli.initialSock at this
                        by_cases hl : j.opts.level = .none
                        · exact hl
                        · exfalso
                          simp only [if_neg hl] at this
                          (repeat' split at this) <;> first | exact hl this | cases this
                      refine ⟨hlev, k, Nat.lt_succ_self k, src, d, q0.room, code, msg, hr, Classical.not_not.mp hip, ?_, hc.1⟩
                      have : (v.initialSock j.opts).1.recv (d.take q0.room) = some (d.take q0.room) := by
                        unfold Cli.initialSock
                        rw [if_pos hlev]
                        rfl
                      rw [this] at hd
                      cases hd
                      exact hcode
                    · cases hrep
                  · cases hrep
                · exact absurd hq (accepted_not_query v j _ _ _ _ _ _ q)
    | up => rw [hb] at hq; simp only [Cli.step, Cli.upStep] at hq; (repeat' split at hq) <;> cases hq
    | down => rw [hb] at hq; simp only [Cli.step, Cli.downStep] at hq; (repeat' split at hq) <;> cases hq
    | done => rw [hb] at hq; cases hq

/-- **C70**: whenever a client which waits for an answer to its request can send, it sends exactly its request, and first, to the
configured endpoint: a read or write request, for the remote name of the job, with the options of the job. Only after the server has refused
options, and only without encryption, the request has no options. (`put` encrypts it if the server's key is known.) -/
theorem c70_request {S} (v : Cli S) (j : Job) (t0 : Nat) (is : List CliIn) (k : Nat) (hk : k < is.length) (q : Query)
    (hq : v.before j t0 is k = .query q) (x : Ep × Bytes) (hx : x ∈ (v.step j (.query q) is[k]).2.head?) :
    x.1 = v.cfg.endpoint ∧ ∃ e, v.put (v.initialSock j.opts).1 is[k].nonce is[k].sendOk
        (match j.task with | .upload .. => .write ⟨j.name, e⟩ | .download _ => .read ⟨j.name, e⟩) = some x.2 ∧
      (e = Spec.demand j v.cfg.remoteKey.isSome v.sessionPub v.cfg.privateKey ∨
       (e = Exts.empty ∧ j.opts.level = .none ∧ ∃ m, ∃ hm : m < k, Spec.refusesOptions v.cfg.endpoint is[m])) := by
  have he := query_exts v j t0 is k (by omega) q hq
  rw [show (v.start j t0).exts = _ from requestOpts_demand v j] at he
  simp only [Cli.step, Cli.queryStep] at hx
  cases hp : v.put (v.initialSock j.opts).1 is[k].nonce is[k].sendOk (j.request q.exts) with
  | none => rw [hp] at hx; simp at hx
  | some req =>
    rw [hp] at hx
    have h0 : x = (v.cfg.endpoint, req) := by
      simp only at hx
      (repeat' split at hx) <;> simpa [eq_comm] using hx
    subst h0
    refine ⟨rfl, q.exts, ?_, he⟩
    rw [← hp]
    unfold Job.request Job.write
    cases j.task <;> rfl

/-- **C70**: without encryption of the request (no encryption asked for, or the server's key not known) anyone who decodes the datagram
reads just that request. -/
theorem c70_plain_request {S} (v : Cli S) (j : Job) (hplain : j.opts.level = .none ∨ v.cfg.remoteKey = none) (hname : Spec.Text j.name)
    (t0 : Nat) (is : List CliIn) (k : Nat) (hk : k < is.length) (q : Query)
    (hq : v.before j t0 is k = .query q) (hsend : is[k].sendOk = true) :
    ∃ d e, (v.step j (.query q) is[k]).2.head? = some (v.cfg.endpoint, d) ∧
      Packet.fromBytes d = .ok (match j.task with | .upload .. => .write ⟨j.name, e⟩ | .download _ => .read ⟨j.name, e⟩) ∧
      (e = Spec.demand j v.cfg.remoteKey.isSome v.sessionPub v.cfg.privateKey ∨
       (e = Exts.empty ∧ j.opts.level = .none ∧ ∃ m, ∃ hm : m < k, Spec.refusesOptions v.cfg.endpoint is[m])) := by
  have hs : ∀ n b, (v.initialSock j.opts).1.send n b = .ok b := by
    intro n b
    unfold Cli.initialSock
    rcases hplain with h | h
    · rw [if_pos h]; rfl
    · split
      · rfl
      · rw [h]; rfl
  have hout : ∃ d, (v.step j (.query q) is[k]).2.head? = some (v.cfg.endpoint, d) := by
    simp only [Cli.step, Cli.queryStep, Cli.put, hs, hsend, if_true]
    (repeat' split) <;> exact ⟨_, rfl⟩
  obtain ⟨d, hd⟩ := hout
  obtain ⟨-, e, h1, h2⟩ := c70_request v j t0 is k hk q hq _ hd
  refine ⟨d, e, hd, ?_, h2⟩
  simp only [Cli.put, hs, hsend, if_true, Option.some.injEq] at h1
  rw [← h1]
  have ht : ∀ k x, e k = some x → Spec.Text x := by
    rcases h2 with rfl | ⟨rfl, -⟩
    · exact demand_text j _ _ _
    · intro k x hx; cases hx
  apply c01_round_trip
  cases j.task <;> exact ⟨hname, ht⟩

end Tftp

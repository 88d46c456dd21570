import Verif.EndDown
/-
C54 with encryption of the handshake: if what the session's cipher has sealed does not open under the cipher of the handshake, it does not matter
that the acceptance is lost or overtaken.
-/
namespace Tftp
open Spec

variable {S : SigScheme}

/-- What is assumed of an event: as `Spec.Allowed`, but while the client waits for the first answer the network may deliver the server's datagrams in any
order, also those of the transfer before the acceptance, or without it. Instead: what the session's cipher has sealed does not open under the
cipher of the handshake. -/
def Spec.AllowedAnyOrder (v : Parties S) (late : Option Nat) (w : World) (e : WEv) : Prop :=
  match e, w.cli with
  | .client i, .query q => (i.file = .all ∨ i.file = .err) ∧ ∀ src d, i.recv = .dgram src d →
      ((∃ p ∈ w.down, p.ep = src ∧ p.bytes = d) ∨ v.sock.recv (d.take q.room) = none) ∧
      (OfTransfer v w src d → v.sock.recv (d.take q.room) = none)
  | _, _ => Allowed v late w e

/-- What can be reached. -/
inductive Spec.ReachAnyOrder (v : Parties S) (late : Option Nat) : World → Prop
  | init (t : Nat) : ReachAnyOrder v late (v.init t)
  | step (w : World) (e : WEv) : ReachAnyOrder v late w → AllowedAnyOrder v late w e → ReachAnyOrder v late (v.step w e)

theorem anyOrder_allowed {v : Parties S} {late w e} (h : AllowedAnyOrder v late w e) : Allowed v late w e := by
  unfold AllowedAnyOrder at h
  split at h
  · rename_i i q hcl
    refine ⟨h.1, fun src d hd => ?_⟩
    rw [hcl]
    obtain ⟨h1, h2⟩ := h.2 src d hd
    exact ⟨h1, .inr fun b hb _ ho => by rw [h2 ho] at hb; cases hb⟩
  · exact h

theorem anyOrder_reach {v : Parties S} {late w} (h : ReachAnyOrder v late w) : Reach v late w := by
  induction h with
  | init t => exact .init t
  | step w e _ ha ih => exact .step w e ih (anyOrder_allowed ha)

/-- **C54**, where it holds: the handshake is encrypted with the server's known key. Whether the acceptance of a download arrives, gets lost, or is
overtaken by any number of blocks: what the client stores is an initial part of a file which the server opened for it, and if it reports success, the
whole file and its length. -/
theorem c54_sealed_download_partial {v : Parties S} {late} (h : Honest v late) {ok} (hj : v.job.task = .download ok) {w} (hr : ReachAnyOrder v late w) :
    (stored w.cli = [] ∨ ∃ e file, Served v w e file ∧ stored w.cli <+: file) ∧
    (∀ k auth f, w.cli = .done (.ok (k, auth)) f → ∃ e, Served v w e f ∧ k = f.length) :=
  ⟨(c53_download h hj (anyOrder_reach hr)).1, (c53_download h hj (anyOrder_reach hr)).2.1⟩

end Tftp

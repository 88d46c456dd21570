import Verif.EndOrder
import Verif.ToyKeys
/-
C54 on a small client and server which know each other's keys: the first block arrives before the acceptance. Nothing here models code.
-/
namespace Tftp
namespace Toy
open Spec

set_option maxRecDepth 20000

def keyFetch : Parties sig := ⟨keySrv, keyCli, ⟨.download true, [97], ⟨512, 80, some 0, .full, 2⟩⟩, true⟩

theorem keyFetch_keyed : Keyed curve keyFetch counter (5 : UInt8) (1 : UInt8) drawnBy counter where
  cli := ⟨_, rfl⟩
  srv := ⟨_, rfl⟩
  priv a h := by
    cases h
    rfl

theorem keyFetch_os : Os keyFetch none boxIo :=
  c76_os keyFetch_keyed boxIo_drawn (fun _ n _ h => by
      simp only [boxIo, Option.some.injEq, Prod.mk.injEq] at h
      omega)
    (fun _ _ _ _ h => by
      simp only [boxIo, Option.some.injEq, Prod.mk.injEq] at h
      rw [← h.2]
      decide)

theorem keyFetch_honest : Honest keyFetch none where
  maxBlock := by decide
  maxWindow := by decide
  sessionPub := keyIt_known.1
  handshakePub := keyIt_known.2.1
  name := show Spec.Text [97] from ⟨by decide, by decide⟩
  blockSize := by decide
  window := by decide
  retry := by decide
  size n h := by
    have : n = 0 := by simpa [keyFetch] using h.symm
    omega
  known := keyIt_known.2.2
  plain e h := by
    have key : ∀ b, keySrv.openRequest b = (none, b) ↔ (keySrv.openRequest b).1.isNone = true ∧ (keySrv.openRequest b).2 = b := by
      intro b
      cases hb : keySrv.openRequest b with
      | mk x y => cases x <;> simp
    refine (key _).mpr ?_
    rcases h with rfl | rfl
    · decide +kernel
    · decide +kernel
  task := .inr rfl
  late _ h := nomatch h

/-- A move which meets `Spec.AllowedAnyOrder`. -/
def Move.free (v : Parties sig) (w : World) (m : Move) : Bool := match m, w.cli with
  | .hear k, .query q => match w.down[k]? with
    | some p => (v.sock.recv (p.bytes.take q.room)).isNone || (match w.conns p.ep with
      | some c => ((v.srv.transfer c).codec.dec p.bytes).isNone
      | none => true)
    | none => false
  | _, _ => m.okay v w

theorem free_allowed {v : Parties sig} (hos : Os v none boxIo) {w : World} {m : Move} (h : m.free v w = true) :
    AllowedAnyOrder v none w (m.event w) := by
  unfold Move.free at h
  generalize hm : m = m' at h
  split at h
  · rename_i k q hcl
    subst hm
    unfold AllowedAnyOrder Move.event
    simp only [hcl]
    refine ⟨.inl rfl, fun src d hd => ?_⟩
    cases hk : w.down[k]? with
    | none => rw [hk] at h; cases h
    | some p =>
      rw [hk] at h hd
      simp only [Option.map_some, Option.getD_some, NetIn.dgram.injEq] at hd
      obtain ⟨rfl, rfl⟩ := hd
      refine ⟨.inl ⟨p, List.mem_of_getElem? hk, rfl, rfl⟩, fun ⟨c, x, h1, h2, _⟩ => ?_⟩
      simp only [h1, h2, Option.isNone_some, Bool.or_false, Option.isNone_iff_eq_none] at h
      exact h
  · rename_i h1
    subst hm
    have ha := okay_allowed hos h
    unfold AllowedAnyOrder
    split
    · rename_i i q he hcl
      cases m with
      | quiet =>
        cases he
        exact ⟨.inl rfl, fun src d hd => nomatch hd⟩
      | hear k => exact (h1 k q rfl hcl).elim
      | start k a => cases he
      | tick => cases he
      | recv k => cases he
      | check => cases he
    · exact ha

def freely (v : Parties sig) : World → List Move → Bool
  | _, [] => true
  | w, m :: ms => m.free v w && freely v (v.step w (m.event w)) ms

theorem freely_reach {v : Parties sig} (hos : Os v none boxIo) {w : World} (hw : ReachAnyOrder v none w) {ms : List Move}
    (h : freely v w ms = true) : ReachAnyOrder v none (play v w ms) := by
  induction ms generalizing w with
  | nil => exact hw
  | cons m ms ih =>
    simp only [freely, Bool.and_eq_true] at h
    exact ih (.step _ _ hw (free_allowed hos h.1)) h.2

/-- C54: with known keys and full encryption a download succeeds; and if the first block arrives before the acceptance, the client reports an error
(the same run, without encryption, cuts the file: `c54_lost_acceptance_truncates`). -/
example : Honest keyFetch none ∧ keyFetch.job.task = .download true ∧
    ReachAnyOrder keyFetch none (play keyFetch (keyFetch.init 0) fetching) ∧
    ends (play keyFetch (keyFetch.init 0) fetching) = (some (600, content), some ([], true)) ∧
    ReachAnyOrder keyFetch none (play keyFetch (keyFetch.init 0) [.quiet, .start 0, .tick, .hear 0]) ∧
    failure (play keyFetch (keyFetch.init 0) [.quiet, .start 0, .tick, .hear 0]).cli ≠ none :=
  ⟨keyFetch_honest, rfl, freely_reach keyFetch_os (.init 0) (by decide +kernel), by decide +kernel,
    freely_reach keyFetch_os (.init 0) (by decide +kernel), by decide +kernel⟩

end Toy
end Tftp

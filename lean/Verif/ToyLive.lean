import Verif.EndLiveDown
import Verif.ToyEnd
/-
C74 on a small client and server: states in the middle of a transfer which meet its hypotheses. Nothing here models code.
-/
namespace Tftp
namespace Toy
open Spec

set_option maxRecDepth 20000

/-- Is an upload going on; how much is stored. -/
def midUp (w : World) : Option Nat := match w.cli with
  | .up _ _ ep _ _ _ => if w.live = some ep then match w.conns ep with
    | some c => match c.side with
      | .writer r => if r.failed || r.finished then none else some r.w.out.length
      | _ => none
    | none => none
    else none
  | _ => none

theorem midUp_some {w : World} {n} (h : midUp w = some n) : ∃ cf room ep s since auth c r, w.cli = .up cf room ep s since auth ∧ w.live = some ep ∧
    w.conns ep = some c ∧ c.side = .writer r ∧ r.failed = false ∧ r.finished = false ∧ r.w.out.length = n := by
  unfold midUp at h
  split at h
  · rename_i cf room ep s since auth hc
    split at h
    · rename_i hl
      split at h
      · rename_i c hconn
        split at h
        · rename_i r hs
          split at h
          · cases h
          · rename_i hb
            simp only [Bool.or_eq_true, not_or, Bool.not_eq_true] at hb
            simp only [Option.some.injEq] at h
            exact ⟨_, _, _, _, _, _, _, _, hc, hl, hconn, hs, hb.1, hb.2, h⟩
        · cases h
      · cases h
    · cases h
  · cases h

/-- An upload: the first block is stored, the second has been sent and was lost, the request has been repeated. -/
example : ∃ w, Honest (sendIt .protocol) none ∧ Reach (sendIt .protocol) none w ∧ midUp w = some 471 ∧
    content.length ≤ (sendIt .protocol).srv.cfg.maxFileSize :=
  ⟨play (sendIt .protocol) ((sendIt .protocol).init 0) [.quiet, .quiet, .start 0, .hear 0, .quiet, .recv 0, .quiet], sendIt_honest,
    play_reach (boxOs _ _) (.init 0) (by decide +kernel), by decide +kernel, by decide +kernel⟩

/-- Is a download going on; how much is stored. -/
def midDown (w : World) : Option Nat := match w.cli with
  | .down _ _ ep s _ _ => if w.live = some ep then match w.conns ep with
    | some c => match c.side with
      | .reader r => if r.failed || r.finished then none else some s.w.out.length
      | _ => none
    | none => none
    else none
  | _ => none

/-- A download: the server has sent both blocks, the client has stored the first; the second was lost. -/
example : ∃ w, Honest (fetchIt .protocol) none ∧ Reach (fetchIt .protocol) none w ∧ midDown w = some 471 ∧
    w.started.map (fun x => x.2.openRead [97]) = [some (some 600, content)] ∧ content.length ≤ (fetchIt .protocol).cli.cfg.maxFileSize :=
  ⟨play (fetchIt .protocol) ((fetchIt .protocol).init 0) [.quiet, .start 0, .hear 0, .tick, .tick, .hear 1], fetchIt_honest,
    play_reach (boxOs _ _) (.init 0) (by decide +kernel), by decide +kernel, by decide +kernel, by decide +kernel⟩

end Toy
end Tftp

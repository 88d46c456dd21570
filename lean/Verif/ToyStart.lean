import Verif.EndStart
import Verif.ToyEnd
/-
C75 on a small client and server: what its hypotheses ask for happens. Nothing here models code.
-/
namespace Tftp
namespace Toy
open Spec

set_option maxRecDepth 20000

/-- The first packet of a client. -/
def ask (v : Parties sig) : Bytes := match (v.cli.step v.job (.query (v.cli.start v.job 0)) { Toy.quiet 0 with retry := false }).2 with
  | [x] => x.2
  | _ => []

/-- The server takes it and answers, with what the session cipher does not open. -/
def taken (v : Parties sig) : Bool := match (v.srv.newConn 0 (ask v) boxIo).result with
  | .ok (c, out) => out.length == 1 && out.all fun d => ((v.srv.transfer c).codec.dec d).isNone
  | .error _ => false

theorem taken_ok {v : Parties sig} (h : taken v = true) : ∃ c out, (v.srv.newConn 0 (ask v) boxIo).result = .ok (c, out) ∧ out ≠ [] ∧
    ∀ d ∈ out, (v.srv.transfer c).codec.dec d = none := by
  unfold taken at h
  split at h
  · rename_i c out hr
    simp only [Bool.and_eq_true, beq_iff_eq, List.all_eq_true, Option.isNone_iff_eq_none] at h
    exact ⟨c, out, hr, (fun h0 => by rw [h0] at h; cases h.1), h.2⟩
  · cases h

/-- An encrypted upload. -/
example : ∃ w1 w2 auth c r, Works (sendIt .protocol) none 0 ((sendIt .protocol).init 0) 0 w1 ∧
    Works (sendIt .protocol) none 0 ((sendIt .protocol).step w1 (.server sock (.start 0 (ask (sendIt .protocol)) boxIo))) 0 w2 ∧
    w2.cli = .done (.ok (600, auth)) [] ∧ w2.conns sock = some c ∧ c.side = .writer r ∧ r.w.out = content ∧ r.finished = true := by
  obtain ⟨c, out, h1, -, h3⟩ := taken_ok (v := sendIt .protocol) (by decide +kernel)
  obtain ⟨w1, w2, auth, c', r, x1, -, x3, g1, g2, g3, g4, g5, -⟩ := c75_upload (v := sendIt .protocol) sendIt_honest (n := some 600) rfl
    (by decide +kernel) (t := 0) (i := { Toy.quiet 0 with retry := false }) ⟨rfl, rfl, rfl, rfl, rfl, by simp [Toy.quiet]⟩ rfl
    (dg := ask (sendIt .protocol)) (by decide +kernel) (ep := sock) (.inr ⟨rfl, rfl⟩) (boxOs _ _) h1 (fun _ => ⟨h3, fun h => absurd h (by decide)⟩)
  exact ⟨w1, w2, auth, c', r, x1, x3, g1, g2, g3, g4, g5⟩

/-- An encrypted download. -/
example : ∃ w1 t w2 auth c r, Works (fetchIt .protocol) none 0 ((fetchIt .protocol).init 0) 0 w1 ∧
    Works (fetchIt .protocol) none 0 ((fetchIt .protocol).step w1 (.server sock (.start 0 (ask (fetchIt .protocol)) boxIo))) t w2 ∧
    w2.cli = .done (.ok (600, auth)) content ∧ w2.conns sock = some c ∧ c.side = .reader r ∧ r.finished = true := by
  obtain ⟨c, out, h1, h2, h3⟩ := taken_ok (v := fetchIt .protocol) (by decide +kernel)
  obtain ⟨w1, t, w2, auth, c', r, x1, -, x3, g1, g2, g3, g4, -⟩ := c75_download (v := fetchIt .protocol) fetchIt_honest rfl
    (t := 0) (i := { Toy.quiet 0 with retry := false }) ⟨rfl, rfl, rfl, rfl, rfl, by simp [Toy.quiet]⟩ rfl
    (dg := ask (fetchIt .protocol)) (by decide +kernel) (ep := sock) (.inr ⟨rfl, rfl⟩) (boxOs _ _)
    (name := [97]) (size := some 600) (file := content) (by decide +kernel) rfl (by decide +kernel) h1 h2 (fun _ => ⟨h3, fun h => absurd h (by decide)⟩)
  exact ⟨w1, t, w2, auth, c', r, x1, x3, g1, g2, g3, g4⟩

/-- The server takes the request without encryption. -/
def takenPlain (v : Parties sig) : Bool := match (v.srv.newConn 0 (ask v) boxIo).result with
  | .ok (c, out) => out.length == 1 && c.opts.level == .none
  | .error _ => false

theorem takenPlain_ok {v : Parties sig} (h : takenPlain v = true) : ∃ c out, (v.srv.newConn 0 (ask v) boxIo).result = .ok (c, out) ∧ out ≠ [] ∧
    c.opts.level = .none := by
  unfold takenPlain at h
  split at h
  · rename_i c out hr
    simp only [Bool.and_eq_true, beq_iff_eq] at h
    exact ⟨c, out, hr, (fun h0 => by rw [h0] at h; cases h.1), h.2⟩
  · cases h

theorem sendIt_plain_honest : Honest (sendIt .none) none where
  maxBlock := by decide
  maxWindow := by decide
  sessionPub := by decide
  handshakePub := by decide
  name := show Spec.Text [97] from ⟨by decide, by decide⟩
  blockSize := by decide
  window := by decide
  retry := by decide
  size n h := by
    have : n = 0 := by simpa [sendIt] using h.symm
    omega
  known _ h := nomatch h
  plain e _ := rfl
  task := by
    refine ⟨fun k h => ?_, fun _ => by decide⟩
    simp only [Option.some.injEq] at h
    omega
  late _ h := nomatch h

/-- An upload to the main port of the server, without encryption. -/
example : ∃ w1 w2 auth c r, Works (sendIt .none) none 0 ((sendIt .none).init 0) 0 w1 ∧
    Works (sendIt .none) none 0 ((sendIt .none).step w1 (.server (sendIt .none).cli.cfg.endpoint (.start 0 (ask (sendIt .none)) boxIo))) 0 w2 ∧
    w2.cli = .done (.ok (600, auth)) [] ∧ w2.conns (sendIt .none).cli.cfg.endpoint = some c ∧ c.side = .writer r ∧ r.w.out = content ∧
    r.finished = true := by
  obtain ⟨c, out, h1, -, h3⟩ := takenPlain_ok (v := sendIt .none) (by decide +kernel)
  obtain ⟨w1, w2, auth, c', r, x1, -, x3, g1, g2, g3, g4, g5, -⟩ := c75_upload (v := sendIt .none) sendIt_plain_honest (n := some 600) rfl
    (by decide +kernel) (t := 0) (i := { Toy.quiet 0 with retry := false }) ⟨rfl, rfl, rfl, rfl, rfl, by simp [Toy.quiet]⟩ rfl
    (dg := ask (sendIt .none)) (by decide +kernel) (.inl rfl) (boxOs _ _) h1
    (by rw [h3]; rintro (h | h) <;> cases h)
  exact ⟨w1, w2, auth, c', r, x1, x3, g1, g2, g3, g4, g5⟩

end Toy
end Tftp

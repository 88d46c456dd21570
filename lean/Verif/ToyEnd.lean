import Verif.EndDown
import Verif.EndOnce
import Verif.ToyClient
/-
C52, C53 on a small client and server: runs which meet all assumptions and in which a transfer succeeds. Nothing here models code.
-/
namespace Tftp
namespace Toy
open Spec

set_option maxRecDepth 20000

/-- A cipher which recognises its own tag. -/
def box : Aead where
  enc n p := ((flip.enc n p).1, List.replicate 16 9)
  dec n c t := if t = List.replicate 16 9 then flip.dec n c t else none
  enc_length n p := flip.enc_length n p
  tag_length _ _ := by simp
  dec_enc n p := by
    have := flip.dec_enc n p
    simp only [if_true]
    exact this

/-- A server which can encrypt. -/
def boxSrv : Srv sig := ⟨cfg, 10, false, fun _ => box, fun _ => box, fun _ => List.replicate 24 0, by simp⟩

def boxCli : Cli sig := { cli none with
  cfg := { (cli none).cfg with allowPortChange := true }
  handshake := fun _ => box, session := fun _ => box }

/-- A file of 600 bytes: two blocks, of 471 (encrypted) or 512 bytes. -/
def content : Bytes := List.replicate 580 7 ++ List.replicate 20 8

def sendIt (l : Level) : Parties sig := ⟨boxSrv, boxCli, ⟨.upload (some 600) content, [97], ⟨512, 80, some 0, l, 2⟩⟩, false⟩
def fetchIt (l : Level) : Parties sig := ⟨boxSrv, boxCli, ⟨.download true, [97], ⟨512, 80, some 0, l, 2⟩⟩, true⟩

def boxIo : NewIo := ⟨fun _ => some (some 600, content), fun _ => true, true, true, List.replicate 32 3, 0⟩

/-! ### A checker for runs -/

def sock : Ep := ⟨1, 5000⟩

/-- A move: the server looks at the `k`-th newest datagram for it (on the main or on the connection's socket), gets a turn, checks
for a time-out; the client gets nothing, or the `k`-th newest datagram from the server. -/
inductive Move
  | start (k : Nat) (a : Ep := sock)
  | tick
  | recv (k : Nat)
  | check
  | quiet
  | hear (k : Nat)

def Move.event (w : World) (m : Move) (io : NewIo := boxIo) : WEv := match m with
  | .start k a => .server a (.start 0 ((w.up[k]?.map (·.bytes)).getD []) io)
  | .tick => .server sock (.tick 0 ⟨false, .sent, 0⟩)
  | .recv k => .server sock (.recv 0 ((w.up[k]?.map (·.bytes)).getD []) ⟨.all, true, 0⟩)
  | .check => .server sock (.check 0 ⟨.all, true, 0⟩)
  | .quiet => .client { Toy.quiet 0 with retry := false }
  | .hear k => .client { Toy.quiet 0 with retry := false, recv := .dgram ((w.down[k]?.map (·.ep)).getD sock) ((w.down[k]?.map (·.bytes)).getD []) }

/-- Checks `Spec.Allowed` (without an age limit). -/
def Move.okay {S} (v : Parties S) (w : World) (m : Move) (io : NewIo := boxIo) : Bool := match m with
  | .start k a =>
    (match w.up[k]? with
      | some p => decide (p.ep = v.cli.cfg.endpoint)
      | none => false) &&
    decide (a.ip = v.cli.cfg.endpoint.ip) && decide (a ≠ v.cli.cfg.endpoint) && (w.conns a).isNone && (w.conns v.cli.cfg.endpoint).isNone &&
    (match (v.srv.newConn 0 ((w.up[k]?.map (·.bytes)).getD []) io).result with
      | .ok (c, out) => out.all fun d => ((v.srv.transfer c).codec.dec d).isNone || decide (c.opts.level ≠ .protocol ∧ c.opts.level ≠ .full)
      | .error _ => true)
  | .recv k => match w.up[k]?, w.live with
    | some p, some l => decide (p.ep = l)
    | _, none => true
    | none, _ => false
  | .hear k => match w.down[k]? with
    | some p => match w.cli with
      | .query _ => w.acc.any fun x => decide (x.1 = p.ep) && decide (x.2 = p.bytes)
      | _ => true
    | none => false
  | _ => true

theorem okay_allowed {S} {v : Parties S} {io : NewIo} (hos : Os v none io) {w : World} {m : Move} (h : m.okay v w io = true) :
    Allowed v none w (m.event w io) := by
  cases m with
  | start k a =>
    simp only [Move.okay, Bool.and_eq_true, decide_eq_true_eq] at h
    obtain ⟨⟨⟨⟨⟨h1, h2⟩, h3⟩, h4⟩, h6⟩, h5⟩ := h
    intro _
    refine ⟨?_, fun hx => ?_, ⟨h2, by simpa using h4⟩, hos, ?_⟩
    · cases hk : w.up[k]? with
      | none => rw [hk] at h1; cases h1
      | some p =>
        rw [hk] at h1
        exact ⟨p, List.mem_of_getElem? hk, by simpa using h1, by simp⟩
    · rw [Option.isNone_iff_eq_none] at h6
      rw [h6] at hx
      cases hx
    · intro c out hr hl
      refine ⟨fun d hd => ?_, fun e => absurd e h3⟩
      rw [hr] at h5
      simp only [List.all_eq_true, Bool.or_eq_true] at h5
      rcases h5 d hd with h6 | h6
      · simpa using h6
      · simp only [decide_eq_true_eq] at h6
        rcases hl with hl | hl
        · exact absurd hl h6.1
        · exact absurd hl h6.2
  | tick => trivial
  | check => trivial
  | recv k =>
    intro l hl
    refine ⟨?_, .inl rfl⟩
    simp only [Move.okay, hl] at h
    cases hk : w.up[k]? with
    | none => rw [hk] at h; cases h
    | some p =>
      rw [hk] at h
      exact .inl ⟨p, List.mem_of_getElem? hk, by simpa using h, by simp, fun _ hx => nomatch hx⟩
  | quiet => exact ⟨.inl rfl, fun _ _ hx => nomatch hx⟩
  | hear k =>
    refine ⟨.inl rfl, ?_⟩
    intro src d hd
    simp only [Move.okay] at h
    cases hk : w.down[k]? with
    | none => rw [hk] at h; cases h
    | some p =>
      rw [hk] at h hd
      simp only [Option.map_some, Option.getD_some, NetIn.dgram.injEq] at hd
      obtain ⟨rfl, rfl⟩ := hd
      have hm := List.mem_of_getElem? hk
      cases hc : w.cli with
      | query q =>
        rw [hc] at h
        simp only [List.any_eq_true, Bool.and_eq_true, decide_eq_true_eq] at h
        obtain ⟨x, hx, h1, h2⟩ := h
        refine ⟨.inl ⟨p, hm, rfl, rfl⟩, .inr fun _ _ _ => ?_⟩
        rw [← h1, ← h2]
        exact fun _ => hx
      | up => intro _; exact .inl ⟨p, hm, rfl, rfl, fun _ hx => nomatch hx⟩
      | down => intro _; exact .inl ⟨p, hm, rfl, rfl, fun _ hx => nomatch hx⟩
      | done => trivial

def play {S} (v : Parties S) : World → List Move → World
  | w, [] => w
  | w, m :: ms => play v (v.step w (m.event w)) ms

def legal {S} (v : Parties S) : World → List Move → Bool
  | _, [] => true
  | w, m :: ms => m.okay v w && legal v (v.step w (m.event w)) ms

theorem play_reach {S} {v : Parties S} (hos : Os v none boxIo) {w : World} (hw : Reach v none w) {ms : List Move} (h : legal v w ms = true) :
    Reach v none (play v w ms) := by
  induction ms generalizing w with
  | nil => exact hw
  | cons m ms ih =>
    simp only [legal, Bool.and_eq_true] at h
    exact ih (.step w _ hw (okay_allowed hos h.1)) h.2

/-- What the client reports, and the files at the server with the connections' flags. -/
def ends (w : World) : Option (Nat × Bytes) × Option (Bytes × Bool) :=
  (result w.cli, match w.conns sock with
    | some c => match c.side with
      | .writer s => some (s.w.out, s.finished)
      | .reader s => some ([], s.finished)
    | none => none)

theorem boxOs (j : Job) (b : Bool) : Os (⟨boxSrv, boxCli, j, b⟩ : Parties sig) none boxIo where
  key := by decide
  exchange := rfl
  size _ n _ h := by
    simp only [boxIo, Option.some.injEq, Prod.mk.injEq] at h
    omega
  small _ _ _ _ h := by
    simp only [boxIo, Option.some.injEq, Prod.mk.injEq] at h
    rw [← h.2]
    decide

theorem sendIt_honest : Honest (sendIt .protocol) none where
  maxBlock := by decide
  maxWindow := by decide
  sessionPub := by decide
  handshakePub := by decide
  name := show Spec.Text [97] from ⟨by decide, by decide⟩
  blockSize := by decide
  window := by decide
  retry := by decide
  size n h := by
    have : n = 0 := by simpa [sendIt] using h.symm
    omega
  known _ h := nomatch h
  plain e _ := rfl
  task := by
    refine ⟨fun k h => ?_, fun _ => by decide⟩
    simp only [Option.some.injEq] at h
    omega
  late _ h := nomatch h

theorem fetchIt_honest : Honest (fetchIt .protocol) none where
  maxBlock := by decide
  maxWindow := by decide
  sessionPub := by decide
  handshakePub := by decide
  name := show Spec.Text [97] from ⟨by decide, by decide⟩
  blockSize := by decide
  window := by decide
  retry := by decide
  size n h := by
    have : n = 0 := by simpa [fetchIt] using h.symm
    omega
  known _ h := nomatch h
  plain e _ := rfl
  task := .inr rfl
  late _ h := nomatch h

/-- C52: an encrypted upload of two blocks with a repeated request and a repeated block, which succeeds. -/
def sending : List Move := [.quiet, .start 0, .quiet, .hear 0, .quiet, .recv 0, .quiet, .recv 0, .recv 1, .recv 0, .hear 0, .check]

example : Honest (sendIt .protocol) none ∧ Reach (sendIt .protocol) none (play (sendIt .protocol) ((sendIt .protocol).init 0) sending) ∧
    ends (play (sendIt .protocol) ((sendIt .protocol).init 0) sending) = (some (600, []), some (content, true)) :=
  ⟨sendIt_honest, play_reach (boxOs _ _) (.init 0) (by decide +kernel), by decide +kernel⟩

/-- C53: an encrypted download of two blocks from a multi threaded server, with a repeated block. -/
def fetching : List Move := [.quiet, .start 0, .hear 0, .tick, .tick, .hear 1, .hear 1, .hear 0, .recv 0, .check]

example : Honest (fetchIt .protocol) none ∧ Reach (fetchIt .protocol) none (play (fetchIt .protocol) ((fetchIt .protocol).init 0) fetching) ∧
    ends (play (fetchIt .protocol) ((fetchIt .protocol).init 0) fetching) = (some (600, content), some ([], true)) :=
  ⟨fetchIt_honest, play_reach (boxOs _ _) (.init 0) (by decide +kernel), by decide +kernel⟩

/-! ### Findings -/

/-- **C54**, finding: the acceptance of a download is lost (or overtaken by the first block; the server sends the first block without waiting for the
acknowledgement of its acceptance). The client then takes the server for one which knows no options, stores the first block, and
reports success with 516 bytes: the file is silently cut after 512 of 600 bytes. -/
theorem c54_lost_acceptance_truncates :
    let w := play (fetchIt .none) ((fetchIt .none).init 0) [.quiet, .start 0, .tick, .hear 0]
    result w.cli = some (516, content.take 512) ∧ w.started.map (fun x => (x.2.openRead [97]).map (·.2)) = [some content] := by
  decide +kernel

/-- The hypotheses of `c54_acceptance_sent_once_partial`: the connection of an accepted upload lives while the request arrives again and when a
stray datagram arrives, and sends an acknowledgement for two blocks. -/
example : (match (boxSrv.newConn 0 (((play (sendIt .none) ((sendIt .none).init 0) [.quiet]).up[0]?.map (·.bytes)).getD []) boxIo).result with
    | .ok (c, _) =>
      let req := ((play (sendIt .none) ((sendIt .none).init 0) [.quiet]).up[0]?.map (·.bytes)).getD []
      let es := [LifeEv.start 1 req boxIo, .recv 1 req ⟨.all, true, 0⟩, .recv 2 ([0, 3, 0, 1] ++ content.take 512) ⟨.all, true, 0⟩,
        .recv 3 ([0, 3, 0, 2] ++ content.drop 512) ⟨.all, true, 0⟩]
      decide ((∀ k, k < es.length → (boxSrv.lifeRun false (some c) (es.take k)).1.isSome = true) ∧ (boxSrv.lifeRun false (some c) es).2 = [[0, 4, 0, 2]])
    | .error _ => false) = true := by
  decide +kernel

/-- The last connection the server has made, which holds the file on the disk, at two addresses. -/
def onDisk (w : World) : Option Bytes := match w.started with
  | [] => none
  | (e, _) :: _ => match w.conns e with
    | some c => match c.side with
      | .writer s => some s.w.out
      | .reader _ => none
    | none => none

def sock2 : Ep := ⟨1, 5001⟩

/-- A complete upload; then a delayed duplicate of the request (the oldest of the client's datagrams) arrives. -/
def late : World := play (sendIt .none) ((sendIt .none).init 0)
  [.quiet, .start 0, .hear 0, .quiet, .recv 0, .quiet, .recv 0, .hear 0, .check, .start 2 sock2]

/-- **C55**, finding: the client has reported success, the server has stored the file; then a delayed duplicate of the request makes the server open
the file again for writing (if it may be overwritten, this empties it), and nobody sends it again. -/
theorem c55_duplicate_request_empties_file : Reach (sendIt .none) none late ∧
    result late.cli = some (600, []) ∧ onDisk late = some [] ∧
    (match late.conns sock with
      | some c => match c.side with
        | .writer s => some (s.w.out, s.finished)
        | .reader _ => none
      | none => none) = some (content, true) :=
  ⟨play_reach (boxOs _ _) (.init 0) (by decide +kernel), by decide +kernel⟩
end Toy
end Tftp

import Verif.ToyEnd
import Verif.EndFull
/-
C52, C53 with whole servers on a small client and server: runs which meet all assumptions, with a second client, in which a transfer
succeeds. Nothing here models code.
-/
namespace Tftp
namespace Toy
open Spec

set_option maxRecDepth 20000

/-- A move for our client, at address 1, or an event for another address. -/
inductive Big (ε : Type)
  | own (m : Move)
  | foreign (e : ε)

/-! ### Single threaded -/

/-- The event of the single threaded server. -/
def Move.single (w : World) : Move → WholeEv SrvEv
  | .start k a => .server a (.main 0 1 ((w.up[k]?.map (·.bytes)).getD []) boxIo)
  | .tick => .server sock (.round 0 fun _ => ⟨false, .sent, 0⟩)
  | .recv k => .server sock (.client 0 1 ((w.up[k]?.map (·.bytes)).getD []) ⟨.all, true, 0⟩)
  | .check => .server sock (.purge 0 fun _ => ⟨.all, true, 0⟩)
  | .quiet => .client { Toy.quiet 0 with retry := false }
  | .hear k => .client { Toy.quiet 0 with retry := false, recv := .dgram ((w.down[k]?.map (·.ep)).getD sock) ((w.down[k]?.map (·.bytes)).getD []) }

theorem okay_single {S} {v : Parties S} (hos : Os v none boxIo) {w : World} {m : Move} (h : m.okay v w = true) :
    AllowedSingle v none 1 w (m.single w) := by
  have := okay_allowed hos h
  cases m with
  | start k a => exact fun _ => this
  | recv k => exact fun _ => this
  | tick => trivial
  | check => trivial
  | quiet => exact this
  | hear k => exact this

def Big.single (w : World) : Big SrvEv → WholeEv SrvEv
  | .own m => m.single w
  | .foreign e => .server sock e

def Big.okaySingle {S} (v : Parties S) (w : World) : Big SrvEv → Bool
  | .own m => m.okay v w
  | .foreign (.main _ b _ _) => decide (b ≠ 1)
  | .foreign (.client _ b _ _) => decide (b ≠ 1)
  | .foreign _ => true

def playSingle {S} (v : Parties S) : Whole SrvSt → List (Big SrvEv) → Whole SrvSt
  | f, [] => f
  | f, b :: bs => playSingle v (v.single 1 f (b.single f.world)) bs

def legalSingle {S} (v : Parties S) : Whole SrvSt → List (Big SrvEv) → Bool
  | _, [] => true
  | f, b :: bs => b.okaySingle v f.world && legalSingle v (v.single 1 f (b.single f.world)) bs

theorem playSingle_reach {S} {v : Parties S} (hos : Os v none boxIo) {f : Whole SrvSt} (hf : ReachSingle v none 1 f) {bs : List (Big SrvEv)}
    (h : legalSingle v f bs = true) : ReachSingle v none 1 (playSingle v f bs) := by
  induction bs generalizing f with
  | nil => exact hf
  | cons b bs ih =>
    simp only [legalSingle, Bool.and_eq_true] at h
    refine ih (.step f _ hf ?_) h.2
    have h1 := h.1
    cases b with
    | own m => exact okay_single hos h1
    | foreign e =>
      cases e with
      | main t b dg io => intro hb; simp [Big.okaySingle, hb] at h1
      | client t b dg io => intro hb; simp [Big.okaySingle, hb] at h1
      | purge => trivial
      | round => trivial

/-- A second client asks for a file, gets blocks between ours and sends rubbish. -/
def otherReq : Bytes := [0, 1, 98, 0, 111, 99, 116, 101, 116, 0]

def sendingSingle : List (Big SrvEv) := [.foreign (.main 0 2 otherReq boxIo), .own .quiet, .own (.start 0), .foreign (.client 0 2 [0, 9] ⟨.all, true, 0⟩), .own .tick, .own .quiet,
  .own (.hear 0), .own .quiet, .own (.recv 0), .foreign (.main 0 3 [1, 2, 3] boxIo), .own .quiet, .own (.recv 0), .own (.recv 1), .own (.recv 0), .own (.hear 0), .own .check]

example : Honest (sendIt .protocol) none ∧ (sendIt .protocol).stops = false ∧
    ReachSingle (sendIt .protocol) none 1 (playSingle (sendIt .protocol) ⟨⟨[], 0⟩, (sendIt .protocol).init 0⟩ sendingSingle) ∧
    ends (playSingle (sendIt .protocol) ⟨⟨[], 0⟩, (sendIt .protocol).init 0⟩ sendingSingle).world = (some (600, []), some (content, true)) ∧
    (playSingle (sendIt .protocol) ⟨⟨[], 0⟩, (sendIt .protocol).init 0⟩ sendingSingle).srv.clients.map (·.1) = [2] :=
  ⟨sendIt_honest, rfl, playSingle_reach (boxOs _ _) (.init 0) (by decide +kernel), by decide +kernel, by decide +kernel⟩

/-! ### Multi threaded -/

/-- The event of the multi threaded server. -/
def Move.multi (w : World) : Move → WholeEv MEv
  | .start k a => .server a (.main 0 1 ((w.up[k]?.map (·.bytes)).getD []) boxIo)
  | .tick => .server sock (.thread 1 (.send 0 ⟨false, .sent, 0⟩))
  | .recv k => .server sock (.thread 1 (.dgram 0 ((w.up[k]?.map (·.bytes)).getD []) ⟨.all, true, 0⟩))
  | .check => .server sock (.thread 1 (.check 0 ⟨.all, true, 0⟩))
  | .quiet => .client { Toy.quiet 0 with retry := false }
  | .hear k => .client { Toy.quiet 0 with retry := false, recv := .dgram ((w.down[k]?.map (·.ep)).getD sock) ((w.down[k]?.map (·.bytes)).getD []) }

theorem okay_multi {S} {v : Parties S} (hos : Os v none boxIo) {w : World} {m : Move} (h : m.okay v w = true) :
    AllowedMulti v none 1 w (m.multi w) := by
  have := okay_allowed hos h
  cases m with
  | start k a => exact fun _ => this
  | recv k => exact fun _ => this
  | tick => trivial
  | check => trivial
  | quiet => exact this
  | hear k => exact this

def Big.multi (w : World) : Big MEv → WholeEv MEv
  | .own m => m.multi w
  | .foreign e => .server sock e

def Big.okayMulti {S} (v : Parties S) (w : World) : Big MEv → Bool
  | .own m => m.okay v w
  | .foreign (.main _ b _ _) => decide (b ≠ 1)
  | .foreign (.thread b (.dgram ..)) => decide (b ≠ 1)
  | .foreign _ => true

def playMulti {S} (v : Parties S) : Whole MSt → List (Big MEv) → Whole MSt
  | f, [] => f
  | f, b :: bs => playMulti v (v.multi 1 f (b.multi f.world)) bs

def legalMulti {S} (v : Parties S) : Whole MSt → List (Big MEv) → Bool
  | _, [] => true
  | f, b :: bs => b.okayMulti v f.world && legalMulti v (v.multi 1 f (b.multi f.world)) bs

theorem playMulti_reach {S} {v : Parties S} (hos : Os v none boxIo) {f : Whole MSt} (hf : ReachMulti v none 1 f) {bs : List (Big MEv)}
    (h : legalMulti v f bs = true) : ReachMulti v none 1 (playMulti v f bs) := by
  induction bs generalizing f with
  | nil => exact hf
  | cons b bs ih =>
    simp only [legalMulti, Bool.and_eq_true] at h
    refine ih (.step f _ hf ?_) h.2
    have h1 := h.1
    cases b with
    | own m => exact okay_multi hos h1
    | foreign e =>
      cases e with
      | main t b dg io => intro hb; simp [Big.okayMulti, hb] at h1
      | idle => trivial
      | broken => trivial
      | thread b e =>
        cases e with
        | dgram t dg io => intro hb; simp [Big.okayMulti, hb] at h1
        | _ => trivial

/-- The same for a download: `idle` is a thread's wait which times out. -/
def fetchingMulti : List (Big MEv) := [.foreign (.main 0 2 otherReq boxIo), .own .quiet, .own (.start 0), .foreign (.thread 2 (.check 0 ⟨.all, true, 0⟩)),
  .own (.hear 0), .own .check, .own .tick, .foreign (.thread 2 (.send 0 ⟨false, .sent, 0⟩)), .foreign (.thread 1 .idle), .own .check, .own .tick,
  .own (.hear 1), .foreign (.thread 2 (.dgram 0 [7, 7] ⟨.all, true, 0⟩)), .own (.hear 1), .own (.hear 0), .own (.recv 0), .own .check, .foreign (.thread 1 .exit), .foreign .idle]

example : Honest (fetchIt .protocol) none ∧ (fetchIt .protocol).stops = true ∧
    ReachMulti (fetchIt .protocol) none 1 (playMulti (fetchIt .protocol) ⟨MSt.init, (fetchIt .protocol).init 0⟩ fetchingMulti) ∧
    ends (playMulti (fetchIt .protocol) ⟨MSt.init, (fetchIt .protocol).init 0⟩ fetchingMulti).world = (some (600, content), some ([], true)) ∧
    (playMulti (fetchIt .protocol) ⟨MSt.init, (fetchIt .protocol).init 0⟩ fetchingMulti).srv.handles.map (·.1) = [2] :=
  ⟨fetchIt_honest, rfl, playMulti_reach (boxOs _ _) (.init 0) (by decide +kernel), by decide +kernel, by decide +kernel⟩

end Toy
end Tftp

import Verif.KeyExchange
import Verif.ToyEnd
/-
C76 on a small curve: two processes with their own keys; a transfer with full encryption and a known server key, from the first request to
the end. Nothing here models code.
-/
namespace Tftp
namespace Toy
open Spec

set_option maxRecDepth 20000

/-- A cipher with a key, which recognises its own tag. -/
def keyed (k : UInt8) : Aead where
  enc n p := ((flip.enc n p).1, List.replicate 16 k)
  dec n c t := if t = List.replicate 16 k then flip.dec n c t else none
  enc_length n p := flip.enc_length n p
  tag_length _ _ := by simp
  dec_enc n p := by
    have := flip.dec_enc n p
    simp only [if_true]
    exact this

/-- Numbers modulo 256 instead of points of a curve. -/
def curve : Curve where
  Secret := UInt8
  SignKey := UInt8
  pub s := List.replicate 32 s
  dh a p := List.replicate 32 (a * p.headD 0)
  verifying k := List.replicate 32 k
  scalar k := k
  montgomery p := p
  aead p := keyed (p.headD 0)
  pub_length _ := by simp
  dh_comm a b := by simp [List.replicate_succ, UInt8.mul_comm]
  bridge _ := rfl

/-- An entropy source which counts. -/
def counter : Generator curve UInt8 where
  secret e := (e * 2 + 3, e + 1)
  nonce e := (List.replicate 24 e, e + 1)
  nonce_length _ := by simp

/-- A generator which keeps its state to itself. -/
def stale : Generator curve UInt8 where
  secret e := ((7 : UInt8), e)
  nonce e := (List.replicate 24 7, e)
  nonce_length _ := by simp

def drawnBy (p : Bytes) : curve.SessionPair := ⟨(p.headD 0 : UInt8), p⟩

def keySrv : Srv sig := curve.server { cfg with privateKey := some key } 10 false (1 : UInt8) drawnBy counter (fun i => i.toUInt8)

def keyCli : Cli sig := curve.client { (cli (some (List.replicate 32 1))).cfg with allowPortChange := true } counter (5 : UInt8) (fun i => i.toUInt8)

def keyIt : Parties sig := ⟨keySrv, keyCli, ⟨.upload (some 600) content, [97], ⟨512, 80, some 0, .full, 2⟩⟩, false⟩

theorem keyIt_keyed : Keyed curve keyIt counter (5 : UInt8) (1 : UInt8) drawnBy counter where
  cli := ⟨_, rfl⟩
  srv := ⟨_, rfl⟩
  priv a h := by
    cases h
    rfl

theorem boxIo_drawn : DrawnBy curve counter drawnBy boxIo := ⟨(0 : UInt8), by decide, rfl⟩

theorem keyIt_os : Os keyIt none boxIo :=
  c76_os keyIt_keyed boxIo_drawn (fun _ n _ h => by
      simp only [boxIo, Option.some.injEq, Prod.mk.injEq] at h
      omega)
    (fun _ _ _ _ h => by
      simp only [boxIo, Option.some.injEq, Prod.mk.injEq] at h
      rw [← h.2]
      decide)

theorem keyIt_known : keyIt.cli.sessionPub.length = 32 ∧ keyIt.cli.handshakePub.length = 32 ∧
    ∀ k, keyIt.cli.cfg.remoteKey = some k → (∃ a, keyIt.srv.cfg.privateKey = some a ∧ a.pub = k) ∧
      keyIt.cli.handshake k = keyIt.srv.handshake keyIt.cli.handshakePub :=
  c76_known keyIt_keyed (a := key) rfl (fun k h => by cases h; rfl)

theorem keyIt_honest : Honest keyIt none where
  maxBlock := by decide
  maxWindow := by decide
  sessionPub := keyIt_known.1
  handshakePub := keyIt_known.2.1
  name := show Spec.Text [97] from ⟨by decide, by decide⟩
  blockSize := by decide
  window := by decide
  retry := by decide
  size n h := by
    have : n = 0 := by simpa [keyIt] using h.symm
    omega
  known := keyIt_known.2.2
  plain e h := by
    have key : ∀ b, keySrv.openRequest b = (none, b) ↔ (keySrv.openRequest b).1.isNone = true ∧ (keySrv.openRequest b).2 = b := by
      intro b
      cases hb : keySrv.openRequest b with
      | mk x y => cases x <;> simp
    refine (key _).mpr ?_
    rcases h with rfl | rfl
    · decide +kernel
    · decide +kernel
  task := by
    refine ⟨fun k h => ?_, fun _ => by decide⟩
    simp only [Option.some.injEq] at h
    omega
  late _ h := nomatch h

/-- The two ends have different keys for the handshake and for the session, and the upload succeeds. -/
example : Honest keyIt none ∧ Reach keyIt none (play keyIt (keyIt.init 0) sending) ∧
    ends (play keyIt (keyIt.init 0) sending) = (some (600, []), some (content, true)) ∧
    keyIt.cli.sessionPub ≠ keyIt.cli.handshakePub ∧ keyIt.cli.sessionPub ≠ boxIo.sessionPub :=
  ⟨keyIt_honest, play_reach keyIt_os (.init 0) (by decide +kernel), by decide +kernel, by decide, by decide⟩

/-- A forged datagram for the server's connection. -/
def junk : Bytes := List.replicate 516 66

def before : World := play keyIt (keyIt.init 0) (sending.take 5)

theorem junk_allowed : Allowed keyIt none before (.server sock (.recv 0 junk ⟨.all, true, 0⟩)) := by
  intro l hl
  refine ⟨.inr fun c hc => ?_, .inl rfl⟩
  have h : (match before.live.bind before.conns with
      | some c => ((keyIt.srv.transfer c).codec.dec junk).isNone
      | none => false) = true := by decide +kernel
  rw [hl, Option.bind_some, hc] at h
  simpa using h

/-- C52 with an attacker: a forged datagram arrives in the middle; the upload succeeds all the same. -/
example : Reach keyIt none (play keyIt (keyIt.step before (.server sock (.recv 0 junk ⟨.all, true, 0⟩))) (sending.drop 5)) ∧
    ends (play keyIt (keyIt.step before (.server sock (.recv 0 junk ⟨.all, true, 0⟩))) (sending.drop 5)) = (some (600, []), some (content, true)) :=
  ⟨play_reach keyIt_os (.step _ _ (play_reach keyIt_os (.init 0) (by decide +kernel)) junk_allowed) (by decide +kernel), by decide +kernel⟩

/-- The hypothesis of `c76_copied_generator` can be met, and the other generator does not meet it. -/
example : SelfContained stale ∧ ¬ SelfContained counter :=
  ⟨⟨(7 : UInt8), _, fun _ => rfl, fun _ => rfl⟩, fun ⟨s, n, h, _⟩ => by
    have h0 := h (0 : UInt8)
    simp [counter] at h0⟩

/-- The hypotheses of `c76_negotiated`: encryption is agreed. -/
example : (match srvNegotiate keySrv.cfg (curve.createSessionKeys counter (0 : UInt8)).1.pubKey .none
    (createExtensions ⟨512, 80, none, .protocol, 2⟩ (⟨(curve.createSessionKeys counter (5 : UInt8)).1.pubKey, some key⟩ : InitialKeys sig)) .write with
  | .ok (_, _, some k) => decide (k.remotePub = List.replicate 32 13)
  | _ => false) = true := by decide +kernel

end Toy
end Tftp

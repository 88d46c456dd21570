import Verif.ServerLoop
import Verif.ServerAdmit
/-
A small server for examples: it accepts everything. Signatures always verify; the cipher is the identity with a constant tag.
These are instances of the interfaces `SigScheme`, `Aead`, `Srv`, used to show that the hypotheses of the theorems about servers
can be met, and for the witnesses of findings. Nothing here models code.
-/
namespace Tftp
namespace Toy

set_option maxRecDepth 4000

def sig : SigScheme := ⟨fun _ => true, fun _ _ _ => true⟩

def key : AuthKey sig := ⟨List.replicate 32 1, fun _ => List.replicate 64 2, by simp, rfl, by simp, fun _ => rfl⟩

def aead : Aead where
  enc _ p := (p, List.replicate 16 0)
  dec _ c _ := some c
  enc_length _ _ := rfl
  tag_length _ _ := by simp
  dec_enc _ _ := rfl

def cfg : SrvCfg sig := ⟨1024, 8, 1000, 1000000, false, none, none, false⟩

def srv : Srv sig := ⟨cfg, 10, false, fun _ => aead, fun _ => aead, fun _ => List.replicate 24 0, by simp⟩

/-- Read request for the file "a", no options. -/
def rrq : Bytes := [0, 1, 97, 0, 111, 99, 116, 101, 116, 0]

/-- Write request for the file "a", no options. -/
def wrq : Bytes := [0, 2, 97, 0, 111, 99, 116, 101, 116, 0]

/-- Every file has the content 7, 8, 9; all goes well. -/
def io : NewIo := ⟨fun _ => some (some 3, [7, 8, 9]), fun _ => true, true, true, List.replicate 32 3, 0⟩

def sio : Addr → SendIo := fun _ => ⟨false, .sent, 0⟩

/-- The connection `rrq` creates. -/
def reader (t : Nat) : Conn := ⟨{ Opts.default with fileSize := some 3 }, none, .reader ⟨Reader.new .single [7, 8, 9] 512 1, 0, false, false⟩, t, t, 1⟩

theorem rrq_accepted (t : Nat) : srv.newConn t rrq io = ⟨[], .ok (reader t, [])⟩ :=
  newConn_read (v := srv) (t := t) (dg := rrq) (b := rrq) (io := io) (hs := none) (r := ⟨[97], Exts.empty⟩) (used := Exts.empty)
    (o := Opts.default) (keys := none) (name := [97]) (size := some 3) (file := [7, 8, 9]) rfl rfl rfl rfl normalizeName_a rfl rfl rfl

/-- The connection `wrq` creates. -/
def writer (t : Nat) : Conn := ⟨Opts.default, none, .writer ⟨Writer.new, 0, 0, false, false⟩, t, t, 1⟩

theorem wrq_accepted (t : Nat) : srv.newConn t wrq io = ⟨[], .ok (writer t, [[0, 4, 0, 0]])⟩ :=
  newConn_write (v := srv) (t := t) (dg := wrq) (b := wrq) (io := io) (hs := none) (r := ⟨[97], Exts.empty⟩) (used := Exts.empty)
    (o := Opts.default) (keys := none) (name := [97]) rfl rfl rfl rfl normalizeName_a rfl rfl rfl

theorem join {s : SrvSt} (t : Nat) (a : Addr) (h1 : s.clients.any (fun x => x.1 == a) = false) (h2 : s.clients.length < 10) :
    (srv.step s (.main t a rrq io)).1 = { s with clients := insertClient a (reader t) s.clients } := by
  have h3 : ¬ s.clients.length ≥ srv.maxConn := by show ¬ s.clients.length ≥ 10; omega
  simp only [Srv.step, h1, h3, rrq_accepted, if_false, Bool.false_eq_true]

theorem run_split (s : SrvSt) (a b : List SrvEv) : srv.run s (a ++ b) = srv.run (srv.run s a) b := by simp [Srv.run]

/-- Clients 1 and 2 join; 1 is served at time 1, 2 at time 2, and 1 again (a retransmission) at time 300. -/
def turns : List SrvEv := [.main 0 1 rrq io, .main 0 2 rrq io, .round 1 sio, .round 2 sio, .round 300 sio]

theorem joined (a b : Nat) (h : a < b) :
    srv.run ⟨[], 0⟩ [.main 0 a rrq io, .main 0 b rrq io] = ⟨[(a, reader 0), (b, reader 0)], 0⟩ := by
  simp only [Srv.run, List.foldl]
  rw [join 0 a rfl (by decide), join 0 b (by simp only [insertClient, List.any_cons, List.any_nil, Bool.or_false, beq_eq_false_iff_ne]; show a ≠ b; omega) (by simp [insertClient])]
  simp only [insertClient]
  rw [if_neg (by show ¬ b < a; omega)]

/-- C40: the hypotheses of `c40_round_robin_partial` are met by the history `turns` with `i = 2`, `j = 4`, `x = 1`, `y = 2`. -/
example : Spec.sender srv (srv.run ⟨[], 0⟩ (turns.take 2)) (.round 1 sio) = some 1 ∧
    Spec.sender srv (srv.run ⟨[], 0⟩ (turns.take 4)) (.round 300 sio) = some 1 ∧
    (∀ k, 2 ≤ k → k ≤ 5 → (srv.run ⟨[], 0⟩ (turns.take k)).active = [1, 2]) ∧
    (∀ k t o, 2 < k → k ≤ 4 → turns[k]? = some (.round t o) → Spec.Wants srv (srv.run ⟨[], 0⟩ (turns.take k)) t o 2) := by
  have h2 := joined 1 2 (by decide)
  have e : ∀ k, 2 ≤ k → k ≤ 5 → srv.run ⟨[], 0⟩ (turns.take k) =
      srv.run ⟨[(1, reader 0), (2, reader 0)], 0⟩ ((turns.drop 2).take (k - 2)) := by
    intro k h1 h5
    rw [← h2, ← run_split]
    congr 1
    have : k = 2 ∨ k = 3 ∨ k = 4 ∨ k = 5 := by omega
    rcases this with rfl | rfl | rfl | rfl <;> rfl
  refine ⟨?_, ?_, ?_, ?_⟩
  · rw [e 2 (by decide) (by decide)]; rfl
  · rw [e 4 (by decide) (by decide)]; rfl
  · intro k h1 h5
    rw [e k h1 h5]
    have : k = 2 ∨ k = 3 ∨ k = 4 ∨ k = 5 := by omega
    rcases this with rfl | rfl | rfl | rfl <;> rfl
  · intro k t o h1 h5 hk
    rw [e k (by omega) (by omega)]
    have : k = 3 ∨ k = 4 := by omega
    rcases this with rfl | rfl
    · simp only [turns, List.getElem?_cons_succ, List.getElem?_cons_zero, Option.some.injEq, SrvEv.round.injEq] at hk
      obtain ⟨rfl, rfl⟩ := hk
      exact ⟨_, rfl, rfl, rfl⟩
    · simp only [turns, List.getElem?_cons_succ, List.getElem?_cons_zero, Option.some.injEq, SrvEv.round.injEq] at hk
      obtain ⟨rfl, rfl⟩ := hk
      exact ⟨_, rfl, rfl, rfl⟩

/-- A client which asks for full encryption, blocks of 1000 bytes and a window of 4, with an authorization key. -/
def cliOpts : Opts := ⟨1000, 2000, some 0, .full, 4⟩

def cliKeys : InitialKeys sig := ⟨List.replicate 32 5, some key⟩

/-- A server with a key of its own and a list of authorized keys, requiring full encryption. -/
def strict : SrvCfg sig := { cfg with authorized := some [List.replicate 32 1], privateKey := some key, requireFull := true }

def isOk {α ε : Type} : Except ε α → Bool
  | .ok _ => true
  | .error _ => false

theorem of_isOk {α ε : Type} {e : Except ε α} (h : isOk e = true) : ∃ a, e = .ok a := by
  cases e with
  | ok a => exact ⟨a, rfl⟩
  | error x => cases h

/-- C16, C18, C23: a server with authorized keys accepts the request of a client with such a key. -/
example : ∃ x, srvNegotiate strict (List.replicate 32 3) .full (createExtensions cliOpts cliKeys) (.read (some 3)) = .ok x :=
  of_isOk (by decide +kernel)

/-- C23: ... and refuses one without. -/
example : isOk (srvNegotiate strict (List.replicate 32 3) .full
    (createExtensions cliOpts (⟨List.replicate 32 5, none⟩ : InitialKeys sig)) (.read (some 3))) = false := by decide +kernel

/-- C17: an option which was not requested. -/
example : ((Exts.empty.insert .blockSize [49]) .blockSize).isSome ∧ Exts.empty .blockSize = none := ⟨rfl, rfl⟩

/-- C22, C38, C39: a history with two connections. -/
example : (srv.run ⟨[], 0⟩ [.main 0 1 rrq io, .main 0 2 rrq io]).addrs = [1, 2] ∧
    (srv.run ⟨[], 0⟩ [.main 0 1 rrq io, .main 0 2 rrq io]).conn 2 = some (reader 0) := by
  rw [joined 1 2 (by decide)]; exact ⟨rfl, rfl⟩

/-- C38: one of them acknowledges its only block and is dropped by the next purge, the other one is dropped by a purge after more
than a second of silence. -/
example : (srv.run ⟨[(1, reader 0), (2, reader 0)], 0⟩ [.round 1 sio, .round 2 sio, .client 3 1 [0, 4, 0, 1] ⟨WriteIo.all, true, 0⟩,
      .purge 999 (fun _ => ⟨WriteIo.all, true, 0⟩)]).addrs = [2] ∧
    (srv.run ⟨[(1, reader 0), (2, reader 0)], 0⟩ [.purge 1000 (fun _ => ⟨WriteIo.all, true, 0⟩)]).addrs = [1, 2] ∧
    (srv.run ⟨[(1, reader 0), (2, reader 0)], 0⟩ [.purge 1001 (fun _ => ⟨WriteIo.all, true, 0⟩)]).addrs = [] := ⟨rfl, rfl, rfl⟩

/-- C39: a block, then after 80 ms the same block again with the multiplier raised. -/
example : (srv.run ⟨[(1, reader 0)], 0⟩ [.round 1 sio, .round 82 sio]).clients.map (·.2.mult) = [3] ∧
    (srv.run ⟨[(1, reader 0)], 0⟩ [.round 1 sio, .round 81 sio]).clients.map (·.2.mult) = [1] := ⟨rfl, rfl⟩

/-- C24: `c24_data_level_accepted` applies to a server which requires full encryption. -/
example : ∃ dg c used, sealInitial aead (List.replicate 24 0) (List.replicate 32 0) (Spec.dataRequest (List.replicate 32 4)).toBytes
      516 = .ok dg ∧ (({ srv with cfg := { strict with authorized := none } } : Srv sig).newConn 0 dg io).result =
        .ok (c, [(Packet.optionalAck used).toBytes]) ∧ c.opts.level = .data :=
  c24_data_level_accepted ({ srv with cfg := { strict with authorized := none } } : Srv sig) rfl rfl _ _ _ (by simp) (by simp)
    (by simp) 0 io rfl rfl rfl

/-- C41: without credentials no reply. -/
example : (({ srv with cfg := { strict with errorToAuthorizedOnly := true } } : Srv sig).newConn 0 rrq io).replies = [] ∧
    (({ srv with cfg := strict } : Srv sig).newConn 0 rrq io).replies = [[0, 5, 0, 4, 0]] := ⟨rfl, rfl⟩

/-- Two clients join, then both always have a datagram waiting (an acknowledgement of block 0, which changes nothing). -/
def loopTurns : List Turn :=
  let t (k : Nat) (m : Option (Addr × Bytes × NewIo)) : Turn :=
    ⟨k, k, k, fun _ => ⟨WriteIo.all, true, 0⟩, sio, fun _ => some [0, 4, 0, 0], ⟨WriteIo.all, true, 0⟩, m⟩
  [t 0 (some (1, rrq, io)), { t 1 (some (2, rrq, io)) with ready := fun _ => none }, t 2 none, t 3 none, t 4 none]

/-- C47, C38: in these iterations the main socket, client 1, client 2 and the main socket again are read. -/
example : (List.range 5).map (Spec.read srv 0 loopTurns) = [none, none, some 1, some 2, none] ∧ Spec.Clock 0 loopTurns := by
  refine ⟨by decide +kernel, ?_⟩
  simp [Spec.Clock, loopTurns]

end Toy

set_option maxRecDepth 4000

/-- Finding (C40): the turn is remembered as an index into the table of active clients, so that a client joining shifts the turns.
Clients 2 and 3 are being served; client 2 has just been sent a block when client 1 joins; the next turn is client 2's again,
although client 3 has a block to send all the time. With clients joining or leaving a client can be passed over. -/
theorem c40_joining_shifts_turns :
    ∃ (s : SrvSt) (r1 r2 j : SrvEv), (∃ evs, s = Toy.srv.run ⟨[], 0⟩ evs) ∧
      (∃ t io, r1 = .round t io ∧ Spec.Wants Toy.srv s t io 3) ∧
      (∃ t dg io, j = .main t 1 dg io) ∧
      (∃ t io, r2 = .round t io ∧ Spec.Wants Toy.srv (Toy.srv.run s [r1, j]) t io 3) ∧
      Spec.sender Toy.srv s r1 = some 2 ∧ Spec.sender Toy.srv (Toy.srv.run s [r1, j]) r2 = some 2 := by
  refine ⟨_, .round 1 Toy.sio, .round 300 Toy.sio, .main 2 1 Toy.rrq Toy.io, ⟨_, (Toy.joined 2 3 (by decide)).symm⟩,
    ⟨_, _, rfl, _, rfl, rfl, rfl⟩, ⟨_, _, _, rfl⟩, ?_⟩
  have h : Toy.srv.run ⟨[(2, Toy.reader 0), (3, Toy.reader 0)], 0⟩ [.round 1 Toy.sio, .main 2 1 Toy.rrq Toy.io] =
      ⟨(1, Toy.reader 2) :: (Toy.srv.step ⟨[(2, Toy.reader 0), (3, Toy.reader 0)], 0⟩ (.round 1 Toy.sio)).1.clients, 1⟩ := by
    show (Toy.srv.step (Toy.srv.step ⟨[(2, Toy.reader 0), (3, Toy.reader 0)], 0⟩ (.round 1 Toy.sio)).1 (.main 2 1 Toy.rrq Toy.io)).1 = _
    rw [Toy.join 2 1 rfl (by decide)]
    rfl
  rw [h]
  exact ⟨⟨_, _, rfl, _, rfl, rfl, rfl⟩, rfl, rfl⟩

end Tftp

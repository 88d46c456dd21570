import Verif.EndAgree
import Verif.TransferProps
/-
C52, C53: pieces for both directions.
-/
namespace Tftp
open Spec

variable {S : SigScheme}

theorem transfer_eq (v : Srv S) {c c' : Conn} (ho : c'.opts = c.opts) (he : c'.enc = c.enc) : v.transfer c' = v.transfer c := by
  obtain ⟨o, e, s, a, b, m⟩ := c
  obtain ⟨o', e', s', a', b', m'⟩ := c'
  simp only at ho he
  subst ho; subst he
  rfl

/-- What does not open under the cipher changes nothing at the server. -/
theorem handle_forged (v : Srv S) (c : Conn) (t : Nat) (dg : Bytes) (io : RecvIo) (h : (v.transfer c).codec.dec dg = none) :
    v.handle c t dg io = (c, none) := by
  obtain ⟨o, e, s, a, b, m⟩ := c
  cases s with
  | reader s =>
    have : serverSendRecv (v.transfer ⟨o, e, .reader s, a, b, m⟩) s dg = s := by unfold serverSendRecv; rw [h]
    simp only [Srv.handle, this, Nat.lt_irrefl, gt_iff_lt, if_false]
  | writer s =>
    have : serverRecv (v.transfer ⟨o, e, .writer s, a, b, m⟩) s dg io.file io.sendOk io.nonce = (s, none) := by unfold serverRecv; rw [h]
    simp only [Srv.handle, this, Nat.lt_irrefl, gt_iff_lt, if_false, Option.map_none]

theorem Accepts.congr {v : Parties S} {c c' : Conn} {d : Bytes} (h : Accepts v c d) (ho : c'.opts = c.opts) (he : c'.enc = c.enc) :
    Accepts v c' d := by
  have ht := transfer_eq v.srv ho he
  obtain ⟨h1, h2, h3, ⟨b, h4, h5⟩, h6⟩ := h
  refine ⟨h1, by rw [ho]; exact h2, by rw [ht]; exact h3, ⟨b, h4, ?_⟩, by rw [ho]; exact h6⟩
  intro used initial hu
  have := h5 used initial hu
  split at this
  · obtain ⟨f, a1, a2, a3, a4⟩ := this
    exact ⟨f, by rw [ho]; exact a1, by rw [ho]; exact a2, a3, by rw [ht]; exact a4⟩
  · cases this
  · intro p hp i ok d' hput file bs n mark
    rw [ht]
    exact this p hp i ok d' hput file bs n mark

theorem setAt_self {f : Ep → Option Conn} {e : Ep} {c : Conn} (h : f e = some c) : setAt f e c = f := by
  funext x
  unfold setAt
  split
  · rename_i hx; rw [hx, h]
  · rfl

theorem setAt_same (f : Ep → Option Conn) (e : Ep) (c : Conn) : setAt f e c e = some c := by simp [setAt]
theorem setAt_other {f : Ep → Option Conn} {e x : Ep} {c : Conn} (h : x ≠ e) : setAt f e c x = f x := by simp [setAt, h]

theorem RInv.init (c : Cfg) (file : Bytes) : RInv c file 0 ⟨Writer.new, 0, 0, false, false⟩ := by
  refine ⟨Mapper.inv_new, Nat.le_refl _, by simp [Writer.new, bytesIn], Nat.le_refl _, fun _ => by simp [Writer.new, bytesIn],
    Nat.zero_le _, (fun h => nomatch h), fun h => ?_⟩
  exact absurd (show (0 : Nat) = _ from h) (Nat.succ_ne_zero _).symm

theorem SInv.init {c : Cfg} {k : Kind} {file : Bytes} (hk : k = .single → c.W = 1) :
    SInv c file Mapper.new Window.init ⟨Reader.new k file c.bs c.W, 0, false, false⟩ := by
  refine ⟨ReaderSim.init k file c.bs c.W hk, Mapper.inv_new, by simp [Window.init, bytesIn], (fun h => nomatch h), fun h => ?_⟩
  exact absurd (show (0 : Nat) = _ from h) (Nat.succ_ne_zero _).symm

theorem small_blocks {file : Bytes} {bs : Nat} (hf : file.length ≤ 26000000) (hb : 471 ≤ bs) : nblocks file bs ≤ 55535 := by
  unfold nblocks
  have h1 : file.length / bs ≤ file.length / 471 := Nat.div_le_div_left hb (by omega)
  have h2 : file.length / 471 ≤ 26000000 / 471 := Nat.div_le_div_right hf
  generalize file.length / bs = q at *
  omega

theorem timely_of {v : Parties S} {late : Option Nat} (h : Honest v late) {file : Bytes} (hf : late = none → file.length ≤ 26000000)
    {bs W mark now : Nat} (hb : 471 ≤ bs) (hW : W ≤ v.job.opts.window) (ha : Aged late mark now) :
    Timely file bs W (late.getD 0) mark now := by
  cases hl : late with
  | none => exact .inl (small_blocks (hf hl) hb)
  | some l =>
    right
    have h1 : l / bs ≤ l / 471 := Nat.div_le_div_left hb (by omega)
    have := h.late l hl
    refine ⟨ha l hl, ?_⟩
    show l / bs + W + 1 ≤ 10000
    generalize l / bs = q at *
    omega

theorem window_ok {v : Parties S} {late : Option Nat} (h : Honest v late) {file : Bytes} (hf : late = none → file.length ≤ 26000000)
    {bs : Nat} (hb : 471 ≤ bs) : v.job.opts.window ≤ 10000 ∨ nblocks file bs ≤ 55535 := by
  cases hl : late with
  | none => exact .inr (small_blocks (hf hl) hb)
  | some l => left; have := h.late l hl; omega

/-- Datagrams of a connection fit the client's buffer. -/
theorem enc_length (v : Srv S) (c : Conn) (hb : 512 ≤ c.opts.blockSize) {n : Nat} {p : Packet} {d : Bytes}
    (h : (v.transfer c).codec.enc n p.toBytes = some d)
    (hp : (∃ b x, p = .data b x ∧ x.length ≤ c.opts.payload) ∨ (∃ b, p = .ack b) ∨ ∃ e, p = .error e []) :
    d.length ≤ recvBuffer c.opts.blockSize := by
  have hp' : (∃ b x, p = .data b x ∧ x.length ≤ c.opts.payload) ∨ ((∀ b x, p ≠ .data b x) ∧ p.toBytes.length ≤ 516) := by
    rcases hp with h | ⟨b, rfl⟩ | ⟨e, rfl⟩
    · exact .inl h
    · right; simp [Packet.toBytes, be16]
    · right; simp [Packet.toBytes, be16]
  cases hc : c.enc with
  | none =>
    simp only [Srv.transfer, hc, Codec.plain, Option.some.injEq] at h
    subst h
    have := payload_471 hb
    rcases hp' with ⟨b, x, rfl, hx⟩ | ⟨-, h⟩
    · have : (Packet.data b x).toBytes.length = x.length + 4 := by simp [Packet.toBytes, be16]
      unfold recvBuffer; omega
    · unfold recvBuffer; omega
  | some A =>
    simp only [Srv.transfer, hc, Codec.level] at h
    split at h
    · rename_i x hx
      simp only [Option.some.injEq] at h
      subst h
      exact (c28_datagram_size A c.opts hb _ (v.nonce_length _) p x hp' hx).2.1
    · cases h

theorem emit_enc {c : Cfg} {n t p d} (h : c.emit n t p = some d) : c.codec.enc n p.toBytes = some d.bytes := by
  unfold Cfg.emit at h
  simp only [Option.map_eq_some_iff] at h
  obtain ⟨x, h1, rfl⟩ := h
  exact h1

/-- Nothing can be read as data. -/
theorem DataFine.anyMark {D file bs mark mark' d} (h : DataFine D file bs 0 mark d) : DataFine D file bs 0 mark' d := by
  intro b blk x h1 h2
  obtain ⟨t, p, h3, h4, -⟩ := h b blk x h1 h2
  omega

/-- **C27** for the client: after the handshake the transfer loops' way of protecting and reading datagrams (`Cfg.codec`) is what the client's
socket does, for every packet which is not a request. -/
theorem c27_client_socket (v : Cli S) (k0 : Sock) (hasKeys : Bool) (o : Opts) (rk : Option RemoteKeys) :
    (∀ i b, packetType b ≠ some .read → packetType b ≠ some .write →
      (v.cfgOf (v.configure k0 hasKeys o rk) o).codec.enc i b = match (v.configure k0 hasKeys o rk).send (v.nonce i) b with
        | .ok d => some d
        | _ => none) ∧
    (∀ d, (v.cfgOf (v.configure k0 hasKeys o rk) o).codec.dec d = (v.configure k0 hasKeys o rk).recv d) := by
  have hb : (v.configure k0 hasKeys o rk).blockSize = o.payload := rfl
  generalize v.configure k0 hasKeys o rk = k at hb
  obtain ⟨enc, level, pub, size⟩ := k
  simp only at hb
  subst hb
  cases enc with
  | none =>
    refine ⟨fun i b _ _ => ?_, fun d => rfl⟩
    cases level <;> rfl
  | some A =>
    refine ⟨fun i b h1 h2 => ?_, fun d => ?_⟩
    · have hn : ¬ (packetType b = some .read ∨ packetType b = some .write) := by simp [h1, h2]
      cases level <;> simp only [Cli.cfgOf, Codec.level, protect, Sock.send, hn, if_false] <;> rfl
    · simp only [Cli.cfgOf, Codec.level, Sock.recv]; rfl

end Tftp

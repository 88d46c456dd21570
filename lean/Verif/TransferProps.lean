import Verif.TransferFin
/-
C11, C12, C13: safety of a whole transfer over a network which loses, duplicates, delays and reorders.
-/
namespace Tftp
open Spec

/-- The admissible set-ups of a transfer: a positive block size which fits the send buffer, the single
block reader only for windows of one block, and windows of at most 10000 blocks (or files of at most
55535 blocks): larger windows make 16 bit block numbers ambiguous, see `c05_bound_sharp`. -/
structure Spec.Setup (c : Cfg) (k : Kind) (file : Bytes) : Prop where
  bs : 0 < c.bs
  cap : c.bs ≤ c.cap
  kind : k = .single → c.W = 1
  window : c.W ≤ 10000 ∨ file.length / c.bs + 1 ≤ 55535

/-- State of the transfer of `file` after the events `evs`. -/
def transfer (c : Cfg) (k : Kind) (file : Bytes) (nonce : Nat) (evs : List Ev) : Sys :=
  (Sys.init c k file nonce).run c (file.length / c.bs + 1) evs

theorem transfer_inv {c : Cfg} {k : Kind} {file : Bytes} (h : Setup c k file) (nonce : Nat)
    (evs : List Ev) :
    ∃ m w, SysInv c file m w (transfer c k file nonce evs) ∧ FInv c file (transfer c k file nonce evs) :=
  reachable h.kind h.bs h.cap h.window nonce evs

/-- **C11**: at every moment the receiver's file consists of the first `n` blocks of the source file,
whatever was lost, duplicated, delayed, reordered or failed so far. -/
theorem c11_received_is_prefix {c : Cfg} {k : Kind} {file : Bytes} (h : Setup c k file) (nonce : Nat)
    (evs : List Ev) :
    ∃ n, (transfer c k file nonce evs).rcv.w.out = file.take (n * c.bs) ∧
      (transfer c k file nonce evs).rcv.w.written = n := by
  obtain ⟨m, w, h1, -⟩ := transfer_inv h nonce evs
  refine ⟨_, ?_, rfl⟩
  rw [h1.rcv.out, bytesIn, List.take_eq_take_iff]
  omega

/-- **C11**: what has been stored is never taken back: the file at a later moment extends the file at
an earlier one. -/
theorem c11_received_grows {c : Cfg} {k : Kind} {file : Bytes} (h : Setup c k file) (nonce : Nat)
    (evs more : List Ev) :
    (transfer c k file nonce evs).rcv.w.out <+: (transfer c k file nonce (evs ++ more)).rcv.w.out := by
  obtain ⟨m, w, h1, -⟩ := transfer_inv h nonce evs
  obtain ⟨m2, w2, h2, -, h3⟩ := h1.run h.bs h.cap h.window more
  have e : transfer c k file nonce (evs ++ more) =
      (transfer c k file nonce evs).run c (nblocks file c.bs) more := by
    simp only [transfer, Sys.run, List.foldl_append]; rfl
  rw [e, h1.rcv.out, h2.rcv.out]
  exact List.take_prefix_take_left (bytesIn_mono file c.bs h3)

theorem out_eq_file {c : Cfg} {file : Bytes} {seen : Nat} {r : RecvSt} (hbs : 0 < c.bs)
    (h : RInv c file seen r) (hw : r.w.written = nblocks file c.bs) : r.w.out = file := by
  rw [h.out, hw, bytesIn_nblocks _ _ _ hbs (Nat.le_refl _), List.take_length]

/-- **C12**: a receiver which reports success has exactly the source file; a sender which reports
success knows that the receiver has exactly the source file, and that the receiver reports success
too (for the single threaded server: provided the file is within its size limit, see
`c21_single_thread_bypass`). A side reporting success never reports failure as well, if it stops. -/
theorem c12_success_means_identical {c : Cfg} {k : Kind} {file : Bytes} (h : Setup c k file)
    (nonce : Nat) (evs : List Ev) :
    let s := transfer c k file nonce evs
    (s.rcv.finished = true → s.rcv.w.out = file) ∧
    (s.snd.finished = true → s.rcv.w.out = file ∧
      (c.receiver ≠ .serverSingle ∨ file.length ≤ c.max →
        s.rcv.finished = true ∧ (c.receiver ≠ .serverSingle → s.rcv.failed = false))) := by
  obtain ⟨m, w, h1, h2⟩ := transfer_inv h nonce evs
  intro s
  have hwN : s.rcv.w.written ≤ nblocks file c.bs :=
    Nat.le_trans h1.rcv.seen (Nat.le_trans h1.seen h1.snd.sim.inv.top_le)
  refine ⟨fun hf => out_eq_file h.bs h1.rcv (h1.rcv.fin hf), fun hf => ?_⟩
  have hb := h1.snd.fin hf
  have hw : s.rcv.w.written = nblocks file c.bs :=
    Nat.le_antisymm hwN (by rw [← hb]; exact h1.base)
  refine ⟨out_eq_file h.bs h1.rcv hw, fun hc => ?_⟩
  have hst : c.receiver ≠ .serverSingle → c.receiver.stops = true := by
    cases c.receiver <;> simp [Role.stops]
  have hfin : s.rcv.finished = true := by
    refine h2.acked (hc.imp_left hst) ?_
    rw [h1.acked, hb]
  exact ⟨hfin, fun hc => h2.one (hst hc) hfin⟩

/-- **C13**: the number of bytes reported with a success is the size of the file: at the sender, and at
the receiver. (The single threaded server can fail and finish the same transfer, see
`c21_single_thread_bypass`; then nothing is reported.) -/
theorem c13_reported_size {c : Cfg} {k : Kind} {file : Bytes} (h : Setup c k file)
    (nonce : Nat) (evs : List Ev) :
    let s := transfer c k file nonce evs
    (s.snd.finished = true → s.snd.total = file.length) ∧
    (s.rcv.finished = true → c.receiver ≠ .serverSingle ∨ s.rcv.failed = false →
      s.rcv.total = file.length ∧ s.rcv.total = s.rcv.w.out.length) := by
  obtain ⟨m, w, h1, h2⟩ := transfer_inv h nonce evs
  intro s
  refine ⟨fun hf => ?_, fun hf hc => ?_⟩
  · have e : s.snd.total = _ := h1.snd.total
    rw [e, h1.snd.fin hf, bytesIn_nblocks _ _ _ h.bs (Nat.le_refl _)]
  · have hst : c.receiver ≠ .serverSingle → c.receiver.stops = true := by
      cases c.receiver <;> simp [Role.stops]
    have hnf : s.rcv.failed = false := hc.elim (fun hc => h2.one (hst hc) hf) id
    have hw := h1.rcv.fin hf
    have e : s.rcv.total = file.length := by
      have e : s.rcv.total = _ := h1.rcv.total hnf
      rw [e, hw, bytesIn_nblocks _ _ _ h.bs (Nat.le_refl _)]
    refine ⟨e, ?_⟩
    rw [e, show s.rcv.w.out = file from out_eq_file h.bs h1.rcv hw]

/-- **C13**: the running count of the sender never exceeds what the receiver has stored, nor the file. -/
theorem c13_confirmed_le_stored {c : Cfg} {k : Kind} {file : Bytes} (h : Setup c k file)
    (nonce : Nat) (evs : List Ev) :
    let s := transfer c k file nonce evs
    s.snd.total ≤ s.rcv.w.out.length ∧ s.rcv.w.out.length ≤ file.length := by
  obtain ⟨m, w, h1, h2⟩ := transfer_inv h nonce evs
  intro s
  have e1 : s.snd.total = _ := h1.snd.total
  have e2 : s.rcv.w.out = _ := h1.rcv.out
  have := bytesIn_mono file c.bs h1.base
  rw [e1, e2, List.length_take]
  simp only [bytesIn] at *
  omega

end Tftp

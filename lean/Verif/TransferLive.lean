import Verif.TransferProps
/-
C14: a transfer whose network works again makes progress and completes.
-/
namespace Tftp
open Spec

/-- Events without a local fault: the file can be read and written, the sockets work, nobody gives up.
Sends may still block, and everything can be lost, duplicated, delayed or reordered. -/
def Spec.Benign : Ev → Prop
  | .tick _ fail _ net _ => fail = false ∧ net ≠ .error
  | .toReceiver _ ioOk sendOk _ => ioOk = true ∧ sendOk = true
  | .toSender _ => True
  | .abortSender | .abortReceiver => False

/-- The network works for one round trip: the retry timeout fires, the sender's datagram arrives, and so
does the newest datagram of the receiver. -/
def Spec.round (nonce : Nat) : List Ev :=
  [.tick true false false .sent nonce, .toReceiver 0 true true nonce, .toSender 0]

/-- A transfer in which no side has failed. -/
structure Live (c : Cfg) (file : Bytes) (m : Mapper) (w : Window) (s : Sys) : Prop where
  inv : SysInv c file m w s
  fin : FInv c file s
  snd : s.snd.failed = false
  rcv : s.rcv.failed = false

/-- The final acknowledgement is in the network. -/
def HasFinal (c : Cfg) (file : Bytes) (s : Sys) : Prop :=
  s.rcv.finished = true → ∃ d ∈ s.acks, d.tag = some (nblocks file c.bs)

/-- A fault free turn of the sender does not fail. -/
theorem tick_ok {c : Cfg} {file : Bytes} {m : Mapper} {w : Window} {s : SendSt} (hbs : 0 < c.bs)
    (hcap : c.bs ≤ c.cap) (h : SInv c file m w s) (hf : s.failed = false) (retry wb : Bool)
    (net : SendRes) (hnet : net ≠ .error) (nonce : Nat) :
    (sendTick c s retry false wb net nonce).1.failed = false := by
  unfold sendTick
  by_cases hst : (s.finished || s.failed) = true
  · rw [if_pos hst]; exact hf
  · rw [if_neg hst]
    have hn := h.sim.next hbs retry false c.cap hcap
    rcases hn with ⟨h0, -⟩ | ⟨h2, -⟩
    · cases h0
    · cases ho : (w.next file c.bs c.W retry).2 with
      | none =>
        rw [ho, expect] at h2
        cases c.sender <;> simp only [clientSendTick, serverSendTick, h2] <;> exact hf
      | some x =>
        obtain ⟨i, again⟩ := x
        rw [ho, expect] at h2
        obtain ⟨d, hd⟩ := emit_isSome (c := c) (n := nonce) (tag := some i)
          (p := dataPacket ⟨i % 65536, i, block file c.bs i, again⟩)
          (by simp [dataPacket, Packet.toBytes, be16])
          (by have := block_length_le file c.bs i; simp [dataPacket, Packet.toBytes, be16]; omega)
        cases c.sender <;> simp only [clientSendTick, serverSendTick, h2, hd]
        · cases net with
          | sent => exact hf
          | wouldBlock => exact hf
          | error => exact absurd rfl hnet
        · exact hf
        · exact hf

/-- A fault free turn of the sender sends a block if there is one. -/
theorem tick_sends {c : Cfg} {file : Bytes} {m : Mapper} {w : Window} {s : SendSt} (hbs : 0 < c.bs)
    (hcap : c.bs ≤ c.cap) (h : SInv c file m w s) (hf : s.failed = false) (hW : 1 ≤ c.W)
    (hb : w.base < nblocks file c.bs) (nonce : Nat) :
    ∃ d, (sendTick c s true false false .sent nonce).2 = some d ∧ d.tag = some (w.base + 1) := by
  have hinv := h.sim.inv
  have hnf : s.finished = false := by
    cases hx : s.finished with
    | false => rfl
    | true => have := h.fin hx; omega
  unfold sendTick
  rw [if_neg (by simp [hnf, hf])]
  rcases h.sim.next hbs true false c.cap hcap with ⟨h0, -⟩ | ⟨h2, -⟩
  · cases h0
  have ho : ∃ again, (w.next file c.bs c.W true).2 = some (w.base + 1, again) := by
    obtain ⟨a1, a2, a3, a4⟩ := hinv
    unfold Window.next
    by_cases h1 : w.base < w.top
    · rw [if_pos ⟨rfl, h1⟩]; exact ⟨_, rfl⟩
    · rw [if_neg (by simp; omega), if_neg (by omega), if_pos (by omega)]
      exact ⟨_, by rw [show w.top = w.base by omega]⟩
  obtain ⟨again, ho⟩ := ho
  rw [ho, expect] at h2
  obtain ⟨d, hd⟩ := emit_isSome (c := c) (n := nonce) (tag := some (w.base + 1))
    (p := dataPacket ⟨(w.base + 1) % 65536, w.base + 1, block file c.bs (w.base + 1), again⟩)
    (by simp [dataPacket, Packet.toBytes, be16])
    (by have := block_length_le file c.bs (w.base + 1); simp [dataPacket, Packet.toBytes, be16]; omega)
  refine ⟨d, ?_, (emit_some hd).1⟩
  cases c.sender <;> simp only [clientSendTick, serverSendTick, h2, hd, if_true]

/-- Delivering a genuine block to a healthy receiver. -/
theorem deliver_ok {c : Cfg} {file : Bytes} {m : Mapper} {w : Window} {s : Sys} (hbs : 0 < c.bs)
    (hW : c.W ≤ 10000 ∨ nblocks file c.bs ≤ 55535) (hmax : file.length ≤ c.max)
    (h : Live c file m w s) {i : Nat} {d : Dgram} (hget : s.data[i]? = some d) {t : Nat}
    (htag : d.tag = some t) (nonce : Nat) (N : Nat) (hN : N = nblocks file c.bs) :
    let s' := s.step c N (.toReceiver i true true nonce)
    s'.rcv.failed = false ∧
    -- nothing happens, or the block is stored, or the newest block is acknowledged again
    (s' = s ∧ (s.rcv.w.written = nblocks file c.bs ∨
        t + 10000 < s.seen ∧ 55535 < nblocks file c.bs) ∨
      t = s.rcv.w.written + 1 ∧ s'.rcv.w.written = t ∧
        s'.rcv.finished = decide (t = nblocks file c.bs) ∧
        (t = nblocks file c.bs → ∃ d' ∈ s'.acks, d'.tag = some t) ∨
      t ≠ s.rcv.w.written + 1 ∧ s'.rcv.w.written = s.rcv.w.written ∧
        s'.rcv.finished = s.rcv.finished ∧
        ∃ d' rest, s'.acks = d' :: rest ∧ d'.tag = some s.rcv.w.written) ∧
    (∀ x ∈ s.acks, x ∈ s'.acks) ∧ s'.snd = s.snd := by
  subst hN
  obtain ⟨⟨hsnd, hrcv, hacked, hseen, hbase, hdata, hacks⟩, hfin, hsf, hrf⟩ := h
  have hinv := hsnd.sim.inv
  have hwr := hrcv.seen
  have hok := hdata d (List.mem_of_getElem? hget)
  unfold DataOk at hok
  rw [htag] at hok
  obtain ⟨ht1, ht2, he⟩ := hok
  simp only [Sys.step, hget]
  split
  · rename_i hcond
    refine ⟨hrf, Or.inl ⟨rfl, ?_⟩, fun x hx => hx, rfl⟩
    simp only [hrf, htag, fresh, Bool.or_false, Bool.or_eq_true, Bool.and_eq_true, Bool.not_eq_true',
      Bool.or_eq_false_iff, decide_eq_false_iff_not] at hcond
    rcases hcond with ⟨-, h1⟩ | ⟨h1, h2⟩
    · exact Or.inl (hrcv.fin h1)
    · exact Or.inr (by omega)
  · rename_i hcond
    simp only [Bool.or_eq_true, Bool.and_eq_true, Bool.not_eq_true', not_or, not_and,
      Bool.not_eq_false] at hcond
    obtain ⟨hc1, hc2⟩ := hcond
    rw [htag] at hc2
    have htop := hinv.top_le
    have hroom := hinv.room
    simp only [fresh, Bool.or_eq_true, decide_eq_true_eq] at hc2
    obtain ⟨hi, hm⟩ := s.rcv.w.mapper.index_fresh s.seen t (nblocks file c.bs) hrcv.mapper
      (by omega) (by omega) hc2 (by omega)
    have hmem : ∀ (e : Option Dgram) x, x ∈ s.acks → x ∈ e.toList ++ s.acks := by
      intro e x hx; simp [hx]
    have key := recv_cases hbs hrcv he ht1 (by omega) hi true true nonce
      (P := fun y => y.1.failed = false ∧
        (t = s.rcv.w.written + 1 ∧ y.1.w.written = t ∧ y.1.finished = decide (t = nblocks file c.bs) ∧
          (t = nblocks file c.bs → ∃ d' ∈ y.2.toList ++ s.acks, d'.tag = some t) ∨
        t ≠ s.rcv.w.written + 1 ∧ y.1.w.written = s.rcv.w.written ∧ y.1.finished = s.rcv.finished ∧
          ∃ d' rest, y.2.toList ++ s.acks = d' :: rest ∧ d'.tag = some s.rcv.w.written))
      ?_ ?_ ?_ ?_
    · exact ⟨key.1, Or.inr key.2, hmem _, rfl⟩
    · intro w' e hwhy
      rcases hwhy with hw | hw | hw
      · cases hw
      · cases hw
      · omega
    · intro w' last' e hnext hw' he' hackd
      refine ⟨hrf, Or.inl ⟨hnext, hw', rfl, ?_⟩⟩
      intro htN
      rcases he' with ⟨rfl, -⟩ | ⟨d', rfl, hd', -⟩
      · exact absurd htN (hackd rfl (Or.inr rfl))
      · exact ⟨d', by simp, hd'⟩
    · intro w' d' hnext hw' hd'
      exact ⟨hrf, Or.inr ⟨hnext, hw', rfl, d', s.acks, rfl, hd'⟩⟩
    · intro w' hnext hw' hs
      cases hs

/-- An acknowledgement at a healthy sender. -/
theorem ack_ok {c : Cfg} {file : Bytes} {m : Mapper} {w : Window} {s : Sys} (hbs : 0 < c.bs)
    (hW : c.W ≤ 10000 ∨ nblocks file c.bs ≤ 55535) (h : Live c file m w s) (i : Nat) :
    let s' := s.step c (nblocks file c.bs) (.toSender i)
    s'.snd.failed = false ∧ s'.rcv = s.rcv ∧ s'.acks = s.acks ∧
    (∀ d t, s.acks[i]? = some d → d.tag = some t → w.base ≤ t → s'.acked = t) := by
  obtain ⟨⟨hsnd, hrcv, hacked, hseen, hbase, hdata, hacks⟩, hfin, hsf, hrf⟩ := h
  have hinv := hsnd.sim.inv
  have hwr := hrcv.seen
  simp only [Sys.step]
  split
  · rename_i hget
    exact ⟨hsf, rfl, rfl, by intro d t hd; rw [hget] at hd; cases hd⟩
  · rename_i d hget
    have hok := hacks d (List.mem_of_getElem? hget)
    have hne := hfin.ackErr hrf d (List.mem_of_getElem? hget)
    unfold AckOk at hok
    cases htag : d.tag with
    | none => exact absurd htag hne
    | some t =>
      rw [htag] at hok
      obtain ⟨ht2, he⟩ := hok
      have htop := hinv.top_le
      have hroom := hinv.room
      split
      · rename_i hcond
        simp only [hsf, fresh, Bool.or_false, Bool.or_eq_true, Bool.and_eq_true,
          Bool.not_eq_true', Bool.or_eq_false_iff, decide_eq_false_iff_not] at hcond
        refine ⟨hsf, rfl, rfl, ?_⟩
        intro d' t' hd' ht' hle
        rw [hget] at hd'
        simp only [Option.some.injEq] at hd'
        subst hd'
        rw [htag] at ht'
        simp only [Option.some.injEq] at ht'
        subst ht'
        rcases hcond with ⟨-, h1⟩ | ⟨h1, -⟩
        · have := hsnd.fin h1
          omega
        · omega
      · rename_i hcond
        simp only [Bool.or_eq_true, Bool.and_eq_true, Bool.not_eq_true', not_or, not_and,
          Bool.not_eq_false] at hcond
        obtain ⟨hc1, hc2⟩ := hcond
        simp only [fresh, Bool.or_eq_true, decide_eq_true_eq] at hc2
        obtain ⟨hi, hm⟩ := m.index_fresh w.base t (nblocks file c.bs) hsnd.mapper
          (by omega) (by omega) (by omega) (by omega)
        obtain ⟨w', _, _, _, h4⟩ := send_recv_ack hbs hsnd he (by omega) hi hm
        refine ⟨by simp only [h4]; exact hsf, rfl, rfl, ?_⟩
        intro d' t' hd' ht' hle
        rw [hget] at hd'
        simp only [Option.some.injEq] at hd'
        subst hd'
        rw [htag] at ht'
        simp only [Option.some.injEq] at ht'
        subst ht'
        simp only [newest]
        omega

/-- Events without local faults keep a transfer alive. -/
theorem Live.step {c : Cfg} {file : Bytes} {m : Mapper} {w : Window} {s : Sys} (hbs : 0 < c.bs)
    (hcap : c.bs ≤ c.cap) (hW : c.W ≤ 10000 ∨ nblocks file c.bs ≤ 55535) (hmax : file.length ≤ c.max)
    (h : Live c file m w s) (hF : HasFinal c file s) (ev : Ev) (hev : Benign ev) :
    ∃ m' w', Live c file m' w' (s.step c (nblocks file c.bs) ev) ∧ w.base ≤ w'.base ∧
      s.rcv.w.written ≤ (s.step c (nblocks file c.bs) ev).rcv.w.written ∧
      HasFinal c file (s.step c (nblocks file c.bs) ev) := by
  obtain ⟨m', w', h1, h2, h3⟩ := h.inv.step hbs hcap hW ev
  refine ⟨m', w', ⟨h1, h.fin.step hbs hW h.inv ev, ?_, ?_⟩, h2, h3, ?_⟩
  · cases ev with
    | tick retry fail wb net nonce =>
      obtain ⟨rfl, h5⟩ := hev
      exact tick_ok hbs hcap h.inv.snd h.snd retry wb net h5 nonce
    | toReceiver i ioOk sendOk nonce =>
      simp only [Sys.step]
      split
      · exact h.snd
      · split <;> exact h.snd
    | toSender i => exact (ack_ok hbs hW h i).1
    | abortSender => exact hev.elim
    | abortReceiver => exact hev.elim
  · cases ev with
    | tick retry fail wb net nonce => exact h.rcv
    | toReceiver i ioOk sendOk nonce =>
      obtain ⟨rfl, rfl⟩ := hev
      cases hget : s.data[i]? with
      | none => simp only [Sys.step, hget]; exact h.rcv
      | some d =>
        cases htag : d.tag with
        | none => exact absurd htag (h.fin.dataErr h.snd d (List.mem_of_getElem? hget))
        | some t => exact (deliver_ok hbs hW hmax h hget htag nonce _ rfl).1
    | toSender i => rw [(ack_ok hbs hW h i).2.1]; exact h.rcv
    | abortSender => exact hev.elim
    | abortReceiver => exact hev.elim
  · cases ev with
    | tick retry fail wb net nonce => exact hF
    | toReceiver i ioOk sendOk nonce =>
      obtain ⟨rfl, rfl⟩ := hev
      cases hget : s.data[i]? with
      | none => simp only [Sys.step, hget]; exact hF
      | some d =>
        cases htag : d.tag with
        | none => exact absurd htag (h.fin.dataErr h.snd d (List.mem_of_getElem? hget))
        | some t =>
          obtain ⟨-, hc, hsub, -⟩ := deliver_ok hbs hW hmax h hget htag nonce _ rfl
          intro hfin
          rcases hc with ⟨h1, -⟩ | ⟨h1, h2, h3, h4⟩ | ⟨h1, h2, h3, h4⟩
          · rw [h1] at hfin ⊢; exact hF hfin
          · rw [h3, decide_eq_true_eq] at hfin
            obtain ⟨d', h5, h6⟩ := h4 hfin
            exact ⟨d', h5, by rw [h6, hfin]⟩
          · rw [h3] at hfin
            obtain ⟨d', h5, h6⟩ := hF hfin
            exact ⟨d', hsub _ h5, h6⟩
    | toSender i =>
      obtain ⟨-, h5, h6, -⟩ := ack_ok hbs hW h i
      unfold HasFinal
      rw [h5, h6]; exact hF
    | abortSender => exact hev.elim
    | abortReceiver => exact hev.elim

theorem Live.run {c : Cfg} {file : Bytes} (hbs : 0 < c.bs)
    (hcap : c.bs ≤ c.cap) (hW : c.W ≤ 10000 ∨ nblocks file c.bs ≤ 55535) (hmax : file.length ≤ c.max)
    (evs : List Ev) : ∀ {m : Mapper} {w : Window} {s : Sys},
    Live c file m w s → HasFinal c file s → (∀ ev ∈ evs, Benign ev) →
    ∃ m' w', Live c file m' w' (s.run c (nblocks file c.bs) evs) ∧ w.base ≤ w'.base ∧
      s.rcv.w.written ≤ (s.run c (nblocks file c.bs) evs).rcv.w.written ∧
      HasFinal c file (s.run c (nblocks file c.bs) evs) := by
  induction evs with
  | nil => intro m w s h hF _; exact ⟨m, w, h, Nat.le_refl _, Nat.le_refl _, hF⟩
  | cons ev evs ih =>
    intro m w s h hF hev
    obtain ⟨m1, w1, h1, b1, c1, f1⟩ := h.step hbs hcap hW hmax hF ev (hev ev (by simp))
    obtain ⟨m2, w2, h2, b2, c2, f2⟩ := ih h1 f1 (fun e he => hev e (by simp [he]))
    exact ⟨m2, w2, h2, by omega, Nat.le_trans c1 c2, f2⟩

theorem round_benign (nonce : Nat) : ∀ ev ∈ round nonce, Benign ev := by
  simp [round, Benign]

/-- One working round trip: a block is stored, or the sender learns about everything stored. -/
theorem round_step {c : Cfg} {file : Bytes} {m : Mapper} {w : Window} {s : Sys} (hbs : 0 < c.bs)
    (hcap : c.bs ≤ c.cap) (hW : c.W ≤ 10000 ∨ nblocks file c.bs ≤ 55535) (hW1 : 1 ≤ c.W)
    (hmax : file.length ≤ c.max) (h : Live c file m w s) (hF : HasFinal c file s) (nonce : Nat)
    (hlt : s.rcv.w.written < nblocks file c.bs) :
    ∃ m' w', Live c file m' w' (s.run c (nblocks file c.bs) (round nonce)) ∧
      HasFinal c file (s.run c (nblocks file c.bs) (round nonce)) ∧
      s.rcv.w.written ≤ (s.run c (nblocks file c.bs) (round nonce)).rcv.w.written ∧
      (s.rcv.w.written < (s.run c (nblocks file c.bs) (round nonce)).rcv.w.written ∨
        w'.base = (s.run c (nblocks file c.bs) (round nonce)).rcv.w.written) ∧
      (w.base = s.rcv.w.written →
        s.rcv.w.written < (s.run c (nblocks file c.bs) (round nonce)).rcv.w.written) := by
  have hb : w.base < nblocks file c.bs := Nat.lt_of_le_of_lt h.inv.base hlt
  -- the sender's turn
  obtain ⟨d, hd1, hd2⟩ := tick_sends hbs hcap h.inv.snd h.snd hW1 hb nonce
  obtain ⟨m1, w1, h1, b1, c1, f1⟩ := h.step hbs hcap hW hmax hF (.tick true false false .sent nonce)
    ⟨rfl, by simp⟩
  have e1 : (s.step c (nblocks file c.bs) (.tick true false false .sent nonce)).data = d :: s.data ∧
      (s.step c (nblocks file c.bs) (.tick true false false .sent nonce)).rcv = s.rcv ∧
      (s.step c (nblocks file c.bs) (.tick true false false .sent nonce)).acked = s.acked ∧
      (s.step c (nblocks file c.bs) (.tick true false false .sent nonce)).seen = s.seen := by
    simp only [Sys.step, hd1]
    simp
  simp only [Sys.run, round, List.foldl_cons, List.foldl_nil]
  generalize s.step c (nblocks file c.bs) (.tick true false false .sent nonce) = s1 at *
  obtain ⟨e1, e2, e3, e4⟩ := e1
  -- the datagram arrives
  obtain ⟨m2, w2, h2, b2, c2, f2⟩ := h1.step hbs hcap hW hmax f1 (.toReceiver 0 true true nonce)
    ⟨rfl, rfl⟩
  obtain ⟨-, hc, -⟩ := deliver_ok hbs hW hmax h1 (i := 0) (d := d) (by rw [e1]; rfl) hd2 nonce _ rfl
  generalize s1.step c (nblocks file c.bs) (.toReceiver 0 true true nonce) = s2 at *
  obtain ⟨m3, w3, h3, b3, c3, f3⟩ := h2.step hbs hcap hW hmax f2 (.toSender 0) trivial
  obtain ⟨-, g1, g2, g3⟩ := ack_ok hbs hW h2 0
  generalize s2.step c (nblocks file c.bs) (.toSender 0) = s3 at *
  refine ⟨m3, w3, h3, f3, ?_, ?_, ?_⟩
  · rw [g1, ← e2]; exact c2
  · rcases hc with ⟨-, hx⟩ | ⟨hx, hy, -⟩ | ⟨hx, hy, -, d', rest, hz, htag⟩
    · rw [e2, e4] at hx
      have := h.inv.seen
      have hroom := h.inv.snd.sim.inv.room
      have htop := h.inv.snd.sim.inv.top_le
      have := h.inv.rcv.seen
      rcases hx with hx | hx
      · omega
      · exfalso
        rcases hW with hW | hW
        · omega
        · omega
    · left; rw [g1, hy, hx, e2]; omega
    · right
      have := g3 d' s1.rcv.w.written (by rw [hz]; rfl) htag (by
        rw [← hy]; exact h2.inv.base)
      rw [← h3.inv.acked, this, g1, hy]
  · intro hbw
    rcases hc with ⟨-, hx⟩ | ⟨hx, hy, -⟩ | ⟨hx, hy, -⟩
    · rw [e2, e4] at hx
      have := h.inv.seen
      have hroom := h.inv.snd.sim.inv.room
      have htop := h.inv.snd.sim.inv.top_le
      rcases hx with hx | hx
      · omega
      · exfalso
        rcases hW with hW | hW
        · omega
        · omega
    · rw [g1, hy, hx, e2]; omega
    · rw [e2] at hx; omega

theorem transfer_append (c : Cfg) (k : Kind) (file : Bytes) (nonce : Nat) (evs more : List Ev) :
    transfer c k file nonce (evs ++ more) =
      (transfer c k file nonce evs).run c (nblocks file c.bs) more := by
  simp only [transfer, Sys.run, List.foldl_append]; rfl

theorem two_rounds {c : Cfg} {file : Bytes} {m : Mapper} {w : Window} {s : Sys} (hbs : 0 < c.bs)
    (hcap : c.bs ≤ c.cap) (hW : c.W ≤ 10000 ∨ nblocks file c.bs ≤ 55535) (hW1 : 1 ≤ c.W)
    (hmax : file.length ≤ c.max) (h : Live c file m w s) (hF : HasFinal c file s) (n1 n2 : Nat)
    (hlt : s.rcv.w.written < nblocks file c.bs) :
    ∃ m' w', Live c file m' w' (s.run c (nblocks file c.bs) (round n1 ++ round n2)) ∧
      HasFinal c file (s.run c (nblocks file c.bs) (round n1 ++ round n2)) ∧
      s.rcv.w.written < (s.run c (nblocks file c.bs) (round n1 ++ round n2)).rcv.w.written := by
  obtain ⟨m1, w1, h1, f1, a1, b1, -⟩ := round_step hbs hcap hW hW1 hmax h hF n1 hlt
  have e : s.run c (nblocks file c.bs) (round n1 ++ round n2) =
      (s.run c (nblocks file c.bs) (round n1)).run c (nblocks file c.bs) (round n2) := by
    simp only [Sys.run, List.foldl_append]
  rw [e]
  generalize s.run c (nblocks file c.bs) (round n1) = s1 at *
  obtain ⟨m3, w3, h3, b3, c3, f3⟩ := Live.run hbs hcap hW hmax (round n2) h1 f1 (round_benign n2)
  by_cases hd : s1.rcv.w.written < nblocks file c.bs
  · obtain ⟨m2, w2, h2, f2, a2, -, b2⟩ := round_step hbs hcap hW hW1 hmax h1 f1 n2 hd
    refine ⟨m2, w2, h2, f2, ?_⟩
    rcases b1 with b1 | b1
    · omega
    · have := b2 b1; omega
  · exact ⟨m3, w3, h3, f3, by omega⟩

/-- **C14**: in every reachable state in which no side has given up, two working round trips store at
least one more block (and nobody fails). No reachable state is a dead end. -/
theorem c14_progress {c : Cfg} {k : Kind} {file : Bytes} (h : Setup c k file) (hW : 1 ≤ c.W)
    (hmax : file.length ≤ c.max) (nonce : Nat) (evs : List Ev) (n1 n2 : Nat) :
    let s := transfer c k file nonce evs
    let s' := transfer c k file nonce (evs ++ (round n1 ++ round n2))
    s.snd.failed = false → s.rcv.failed = false → s.rcv.w.written < file.length / c.bs + 1 →
    s.rcv.w.written < s'.rcv.w.written ∧ s'.snd.failed = false ∧ s'.rcv.failed = false := by
  obtain ⟨m, w, h1, h2⟩ := transfer_inv h nonce evs
  intro s s' hs hr hlt
  have hF : HasFinal c file s := by
    intro hf
    have := h1.rcv.fin hf
    exact absurd this (Nat.ne_of_lt hlt)
  obtain ⟨m', w', h3, -, h4⟩ := two_rounds h.bs h.cap h.window hW hmax ⟨h1, h2, hs, hr⟩ hF n1 n2 hlt
  have e : s' = _ := transfer_append c k file nonce evs (round n1 ++ round n2)
  rw [e]
  exact ⟨h4, h3.snd, h3.rcv⟩

/-- **C14**: from every reachable state in which no side has given up and the receiver is still
running, every continuation without local faults which contains twice as many working round trips as
there are blocks missing — with any losses, duplications, delays and reorderings in between — ends with
the complete file, success at the receiver, and an acknowledgement in the network which, when it is
delivered, makes the sender report success. -/
theorem c14_completes {c : Cfg} {k : Kind} {file : Bytes} (h : Setup c k file) (hW : 1 ≤ c.W)
    (hmax : file.length ≤ c.max) (nonce : Nat) (evs : List Ev) (segments : List (List Ev × Nat × Nat))
    (hseg : ∀ g ∈ segments, ∀ ev ∈ g.1, Benign ev) :
    let s := transfer c k file nonce evs
    let evs' := evs ++ segments.flatMap fun g => g.1 ++ (round g.2.1 ++ round g.2.2)
    let s' := transfer c k file nonce evs'
    s.snd.failed = false → s.rcv.failed = false → s.rcv.finished = false →
    file.length / c.bs + 1 ≤ s.rcv.w.written + segments.length →
    s'.rcv.finished = true ∧ s'.rcv.failed = false ∧ s'.rcv.w.out = file ∧
      ∃ i, (transfer c k file nonce (evs' ++ [.toSender i])).snd.finished = true ∧
           (transfer c k file nonce (evs' ++ [.toSender i])).snd.failed = false := by
  obtain ⟨m, w, h1, h2⟩ := transfer_inv h nonce evs
  intro s evs' s' hs hr hrf hlen
  have hF : HasFinal c file s := by intro hf; rw [hrf] at hf; cases hf
  have key : ∀ (segs : List (List Ev × Nat × Nat)) (s : Sys) m w, Live c file m w s →
      HasFinal c file s → (∀ g ∈ segs, ∀ ev ∈ g.1, Benign ev) →
      nblocks file c.bs ≤ s.rcv.w.written + segs.length →
      ∃ m' w', Live c file m' w' (s.run c (nblocks file c.bs)
          (segs.flatMap fun g => g.1 ++ (round g.2.1 ++ round g.2.2))) ∧
        HasFinal c file (s.run c (nblocks file c.bs)
          (segs.flatMap fun g => g.1 ++ (round g.2.1 ++ round g.2.2))) ∧
        (s.run c (nblocks file c.bs)
          (segs.flatMap fun g => g.1 ++ (round g.2.1 ++ round g.2.2))).rcv.w.written =
            nblocks file c.bs := by
    intro segs
    induction segs with
    | nil =>
      intro s m w hl hf _ hlen
      refine ⟨m, w, hl, hf, ?_⟩
      have := hl.inv.rcv.seen
      have := hl.inv.seen
      have := hl.inv.snd.sim.inv.top_le
      simp only [List.length_nil] at hlen
      simp only [List.flatMap_nil, Sys.run, List.foldl_nil]
      omega
    | cons g segs ih =>
      intro s m w hl hf hb hlen
      have e : s.run c (nblocks file c.bs)
          ((g :: segs).flatMap fun g => g.1 ++ (round g.2.1 ++ round g.2.2)) =
        ((s.run c (nblocks file c.bs) g.1).run c (nblocks file c.bs)
          (round g.2.1 ++ round g.2.2)).run c (nblocks file c.bs)
          (segs.flatMap fun g => g.1 ++ (round g.2.1 ++ round g.2.2)) := by
        simp only [List.flatMap_cons, Sys.run, List.foldl_append]
      rw [e]
      obtain ⟨m1, w1, h1, -, c1, f1⟩ := Live.run h.bs h.cap h.window hmax g.1 hl hf (hb g (by simp))
      generalize s.run c (nblocks file c.bs) g.1 = s1 at *
      have hlen2 : nblocks file c.bs ≤ s1.rcv.w.written + segs.length + 1 := by
        simp only [List.length_cons] at hlen; omega
      by_cases hlt : s1.rcv.w.written < nblocks file c.bs
      · obtain ⟨m2, w2, h2, f2, c2⟩ := two_rounds h.bs h.cap h.window hW hmax h1 f1 g.2.1 g.2.2 hlt
        exact ih _ m2 w2 h2 f2 (fun g hg => hb g (by simp [hg])) (by omega)
      · obtain ⟨m2, w2, h2, -, c2, f2⟩ := Live.run h.bs h.cap h.window hmax
          (round g.2.1 ++ round g.2.2) h1 f1 (by
            intro ev hev
            rw [List.mem_append] at hev
            exact hev.elim (round_benign _ ev) (round_benign _ ev))
        exact ih _ m2 w2 h2 f2 (fun g hg => hb g (by simp [hg])) (by omega)
  obtain ⟨m', w', h3, h4, h5⟩ := key segments s m w ⟨h1, h2, hs, hr⟩ hF hseg hlen
  have e : s' = _ := transfer_append c k file nonce evs
    (segments.flatMap fun g => g.1 ++ (round g.2.1 ++ round g.2.2))
  rw [← e] at h3 h4 h5
  have hfin : s'.rcv.finished = true := by
    rcases h3.inv.rcv.done h5 with hx | hx
    · exact hx
    · rw [h3.rcv] at hx; cases hx
  refine ⟨hfin, h3.rcv, out_eq_file h.bs h3.inv.rcv h5, ?_⟩
  obtain ⟨d, hd, htag⟩ := h4 hfin
  obtain ⟨i, hi⟩ := List.mem_iff_getElem?.mp hd
  refine ⟨i, ?_⟩
  have e2 : transfer c k file nonce (evs' ++ [.toSender i]) =
      s'.step c (nblocks file c.bs) (.toSender i) := transfer_append c k file nonce evs' [.toSender i]
  rw [e2]
  obtain ⟨g1, -, -, g3⟩ := ack_ok h.bs h.window h3 i
  obtain ⟨m4, w4, h4, -⟩ := h3.inv.step h.bs h.cap h.window (.toSender i)
  have hb := g3 d _ hi htag (by
    have := h3.inv.snd.sim.inv
    obtain ⟨q1, q2, q3, q4⟩ := this
    omega)
  refine ⟨?_, g1⟩
  rw [h4.acked] at hb
  rcases h4.snd.done hb with hx | hx
  · exact hx
  · rw [g1] at hx; cases hx

/-- Limit of C14 (finding): a receiver which returns after its final acknowledgement (the client, the
multi threaded server) never answers again, so the sender can not learn about the success if that
datagram is lost: there is no "dallying" as recommended by RFC 1350. -/
theorem c14_no_dallying (c : Cfg) (N : Nat) (s : Sys) (evs : List Ev) (hr : c.receiver ≠ .serverSingle)
    (hf : s.rcv.finished = true) : (s.run c N evs).acks = s.acks := by
  have hst : c.receiver.stops = true := by cases h : c.receiver <;> simp_all [Role.stops]
  suffices ∀ evs (s : Sys), s.rcv.finished = true →
      (s.run c N evs).acks = s.acks ∧ (s.run c N evs).rcv.finished = true from (this evs s hf).1
  intro evs
  induction evs with
  | nil => intro s hf; exact ⟨rfl, hf⟩
  | cons ev evs ih =>
    intro s hf
    have key : (s.step c N ev).acks = s.acks ∧ (s.step c N ev).rcv.finished = true := by
      cases ev with
      | tick => exact ⟨rfl, hf⟩
      | toReceiver i =>
        simp only [Sys.step]
        split
        · exact ⟨rfl, hf⟩
        · rw [if_pos (by simp [hst, hf])]; exact ⟨rfl, hf⟩
      | toSender i =>
        simp only [Sys.step]
        split
        · exact ⟨rfl, hf⟩
        · split <;> exact ⟨rfl, hf⟩
      | abortSender => simp only [Sys.step]; split <;> exact ⟨rfl, hf⟩
      | abortReceiver => simp only [Sys.step]; rw [if_pos hf]; exact ⟨rfl, hf⟩
    obtain ⟨i1, i2⟩ := ih _ key.2
    exact ⟨i1.trans key.1, i2⟩

/- A concrete transfer: 5 bytes in blocks of 2, window 2, multi threaded server to client, with a lost
datagram, a duplicate and a reordering. -/
section Example
def exCfg (r : Role) (max : Nat) : Cfg := ⟨2, 2, 2, 8, max, .serverMulti, r, Codec.plain 6⟩
def exFile : Bytes := [1, 2, 3, 4, 5]

example : Setup (exCfg .client 100) .multi exFile := by
  constructor <;> simp [exCfg]

/-- block 1 lost, block 2 arrives twice, retry -/
def exEvents : List Ev :=
  [.tick false false false .sent 0, .tick false false false .sent 0, .toReceiver 0 true true 0,
   .toReceiver 0 true true 0, .toSender 0, .tick true false false .sent 0, .tick false false false .sent 0,
   .toReceiver 1 true true 0]

example : (transfer (exCfg .client 100) .multi exFile 0 exEvents).rcv.w.out = [1, 2] := by decide
example : (transfer (exCfg .client 100) .multi exFile 0 exEvents).rcv.finished = false := by decide
example : (transfer (exCfg .client 100) .multi exFile 0
    (exEvents ++ ([([], 0, 0), ([.toSender 1], 0, 0)] : List (List Ev × Nat × Nat)).flatMap
      fun g => g.1 ++ (round g.2.1 ++ round g.2.2))).rcv.w.out = exFile := by decide
example : (transfer (exCfg .client 100) .multi exFile 0 (exEvents ++ (round 0 ++ round 0) ++ (round 0 ++ round 0))).snd.finished = true := by
  decide
end Example

end Tftp

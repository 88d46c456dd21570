import Verif.Flood
import Verif.SizesRun
/-
C39 in the terms of the protocol: which block a download connection sends when its retransmission timer has run out, and that it sends
no block twice before. The history is the life of one connection (Life.lean), so this holds for both servers (`c50_single_thread`,
`c50_multi_thread`).
-/
namespace Tftp

/-! ### Specification -/

/-- The datagram `d` carries block `k` (counted from 1, sent modulo 65536) of `file`, protected as agreed on the connection. -/
def Spec.CarriesBlock {S} (v : Srv S) (c : Conn) (nonce : Nat) (file : Bytes) (k : Nat) (d : Bytes) : Prop :=
  (v.transfer c).codec.enc nonce
    (Packet.data (UInt16.ofNat (k % 65536)) ((file.drop ((k - 1) * c.opts.payload)).take c.opts.payload)).toBytes = some d

/-- When the connection sent last: the time of the last turn in which something went out, at first the time of the request. -/
def Spec.sentLast {S} (v : Srv S) (stops : Bool) : Option Conn → Nat → List LifeEv → Nat
  | _, t, [] => t
  | x, t, .tick u io :: es =>
    Spec.sentLast v stops (v.lifeStep stops x (.tick u io)).1 (if (v.lifeStep stops x (.tick u io)).2 = [] then t else u) es
  | x, t, e :: es => Spec.sentLast v stops (v.lifeStep stops x e).1 t es

/-! ### Any acknowledgement confirms what it says -/

theorem ack_exact (file : Bytes) (bs : Nat) (w : Spec.Window) (t : Nat) :
    Spec.bytesIn file bs (w.ack file bs t).1.base = Spec.bytesIn file bs w.base + (w.ack file bs t).2 ∧
    (w.ack file bs t).1.top = w.top := by
  unfold Spec.Window.ack
  simp only
  split
  · have := Spec.bytesIn_mono file bs (i := w.base) (j := min t w.top) (by omega)
    exact ⟨by simp only; omega, rfl⟩
  · exact ⟨rfl, rfl⟩

theorem free_exact {file bs W m r w} (hbs : 0 < bs) (h : ReaderSim file bs W m r w) (blk : Nat) :
    (r.free blk).2 = none ∨
    ∃ w' n, (r.free blk).2 = some n ∧ ReaderSim file bs W (m.index blk).1 (r.free blk).1 w' ∧ w'.top = w.top ∧
      Spec.bytesIn file bs w'.base = Spec.bytesIn file bs w.base + n := by
  cases r with
  | single s =>
    right
    by_cases hok : (m.index blk).2 ≤ w.top
    · obtain ⟨h1, h2⟩ := ReaderSim.free hbs h blk hok
      have := ack_exact file bs w (m.index blk).2
      exact ⟨_, _, h1, h2, this.2, this.1⟩
    · obtain ⟨rfl, h⟩ := h
      have e : s.free blk = ({ s with mapper := (m.index blk).1 }, 0) := by
        simp only [SingleR.free, h.mapper, h.top]
        rw [if_pos (by omega)]
      refine ⟨w, 0, ?_, ?_, rfl, rfl⟩
      · simp only [Reader.free, e]
      · simp only [Reader.free, e]
        refine ⟨rfl, ?_⟩
        obtain ⟨e0, ec, e1, e2, e3, e4, e5, e6, e7, e8, e9⟩ := h
        constructor <;> first | assumption | rfl
  | multi s =>
    right
    obtain ⟨h1, h2⟩ := MultiSim.free_step hbs h blk
    have := ack_exact file bs w (m.index blk).2
    refine ⟨_, _, ?_, h2, this.2, this.1⟩
    simp only [Reader.free]
    rw [← h1]
  | seek s =>
    by_cases hok : ¬ Spec.Window.finished file bs w ∨ (m.index blk).2 ≤ w.base
    · right
      obtain ⟨h1, h2⟩ := SeekSim.free hbs h blk hok
      have := ack_exact file bs w (m.index blk).2
      exact ⟨_, _, h1, h2, this.2, this.1⟩
    · rcases ReaderSim.free_any hbs h blk with h1 | ⟨w', h1, h2⟩
      · exact .inl h1
      · left
        obtain ⟨hf, hgt⟩ : Spec.Window.finished file bs w ∧ w.base < (m.index blk).2 := by
          constructor
          · by_cases hf : Spec.Window.finished file bs w
            · exact hf
            · exact absurd (Or.inl hf) hok
          · by_cases hb : w.base < (m.index blk).2
            · exact hb
            · exact absurd (Or.inr (by omega)) hok
        obtain ⟨hf1, hf2⟩ := hf
        simp only [ReaderSim] at h
        simp only [Reader.free, SeekR.free, h.mapper, h.base, h.top, hf1, h.fin, hf2, h.bs_eq] at hgt ⊢
        rw [if_pos (by omega)]
        simp only [if_pos hgt, if_true]
        rw [if_neg]
        simp; omega

/-! ### The invariant -/

/-- A download connection sends `file` and has confirmed exactly the bytes it counts; it is finished when all blocks are confirmed. -/
structure Serves (file : Bytes) (c : Conn) (s : SendSt) (w : Spec.Window) : Prop where
  side : c.side = .reader s
  bs : 512 ≤ c.opts.blockSize
  win : 1 ≤ c.opts.window
  mult : 1 ≤ c.mult ∧ c.mult ≤ 255
  sim : s.failed = false → ∃ m, ReaderSim file c.opts.payload c.opts.window m s.reader w
  total : s.failed = false → s.total = Spec.bytesIn file c.opts.payload w.base
  open_ : s.failed = false → s.finished = false → w.base < Spec.nblocks file c.opts.payload

theorem sendBlock_eq {S} (v : Srv S) {c : Conn} {s : SendSt} (hs : c.side = .reader s) (t : Nat) (io : SendIo) (c1 : Conn)
    (hc1 : (if c.retryDue t = true then { c with mult := min 255 (c.mult + 2) } else c) = c1) :
    v.sendBlock c t io =
      ({ c1 with
          side := .reader (serverSendTick (v.transfer c1) s (c.retryDue t) io.fail io.net io.nonce).1
          lastSent := if (serverSendTick (v.transfer c1) s (c.retryDue t) io.fail io.net io.nonce).2.isSome &&
            !(serverSendTick (v.transfer c1) s (c.retryDue t) io.fail io.net io.nonce).1.failed then t else c1.lastSent },
        (serverSendTick (v.transfer c1) s (c.retryDue t) io.fail io.net io.nonce).2.map (·.bytes),
        (serverSendTick (v.transfer c1) s (c.retryDue t) io.fail io.net io.nonce).2.isSome &&
          !(serverSendTick (v.transfer c1) s (c.retryDue t) io.fail io.net io.nonce).1.failed) := by
  subst hc1
  unfold Srv.sendBlock
  split
  · rename_i h; rw [hs] at h; cases h
  · rename_i s' h
    rw [hs] at h
    cases h
    rfl

/-- What one turn of a download does. -/
theorem serves_turn {S} (v : Srv S) {file : Bytes} {c : Conn} {s : SendSt} {w : Spec.Window} (h : Serves file c s w) (hf : s.failed = false)
    (t : Nat) (io : SendIo) :
    ∃ s' w', Serves file (v.sendBlock c t io).1 s' w' ∧ (v.sendBlock c t io).1.opts = c.opts ∧ s'.total = s.total ∧
      v.transfer (v.sendBlock c t io).1 = v.transfer c ∧
      (io.fail = false → s'.failed = false) ∧
      (s'.failed = false →
        w' = (w.next file c.opts.payload c.opts.window (c.retryDue t)).1 ∧
        (v.sendBlock c t io).2.1 = (match (w.next file c.opts.payload c.opts.window (c.retryDue t)).2 with
          | none => none
          | some (i, _) => if io.net = .sent then
              (v.transfer c).codec.enc io.nonce
                (Packet.data (UInt16.ofNat (i % 65536)) (Spec.block file c.opts.payload i)).toBytes else none) ∧
        (v.sendBlock c t io).1.lastSent = if (v.sendBlock c t io).2.1.isSome then t else c.lastSent) := by
  obtain ⟨hs, h0, hwin, ⟨h1, h2⟩, h3, h4, h5⟩ := h
  obtain ⟨m, hsim⟩ := h3 hf
  have hpb := payload_bounds h0
  generalize hc1 : (if c.retryDue t = true then { c with mult := min 255 (c.mult + 2) } else c) = c1
  rw [sendBlock_eq v hs t io c1 hc1]
  simp only
  have e1 : v.transfer c1 = v.transfer c := by rw [← hc1]; split <;> rfl
  have e2 : c1.opts = c.opts := by rw [← hc1]; split <;> rfl
  have e3 : 1 ≤ c1.mult ∧ c1.mult ≤ 255 := by
    rw [← hc1]; split
    · simp only; omega
    · exact ⟨h1, h2⟩
  have e4 : c1.lastSent = c.lastSent := by rw [← hc1]; split <;> rfl
  have e5 : ∀ side n, v.transfer { c1 with side := side, lastSent := n } = v.transfer c := by
    intro side n; rw [← e1]; rfl
  have htot : (serverSendTick (v.transfer c1) s (c.retryDue t) io.fail io.net io.nonce).1.total = s.total ∧
      (serverSendTick (v.transfer c1) s (c.retryDue t) io.fail io.net io.nonce).1.finished = s.finished := by
    unfold serverSendTick; simp only; split <;> exact ⟨rfl, rfl⟩
  rw [e1] at htot ⊢
  rcases sendTick_sim (c := v.transfer c) hpb.1 hpb.2 hsim (c.retryDue t) io.fail io.net io.nonce with ⟨g1, g2⟩ | ⟨g1, g2, g3⟩
  · refine ⟨_, w, ⟨rfl, by simp only; rw [e2]; exact h0, by simp only; rw [e2]; exact hwin, e3, ?_, ?_, ?_⟩, e2, htot.1, e5 _ _, ?_, ?_⟩
    · intro h; rw [g1] at h; cases h
    · intro h; rw [g1] at h; cases h
    · intro h; rw [g1] at h; cases h
    · intro h; rw [g2] at h; cases h
    · intro h; rw [g1] at h; cases h
  · refine ⟨_, (w.next file c.opts.payload c.opts.window (c.retryDue t)).1, ⟨rfl, by simp only; rw [e2]; exact h0, by simp only; rw [e2]; exact hwin, e3, ?_, ?_, ?_⟩, e2,
      htot.1, e5 _ _, ?_, ?_⟩
    · intro _; simp only; rw [e2]; exact ⟨m, g2⟩
    · intro _; simp only; rw [e2, htot.1, (next_moves hsim.inv _).1]; exact h4 hf
    · intro _ hfin; simp only; rw [e2, (next_moves hsim.inv _).1]; rw [htot.2] at hfin; exact h5 hf hfin
    · intro _; rw [g1]; exact hf
    · intro _
      refine ⟨rfl, ?_, ?_⟩
      · cases hn : (w.next file c.opts.payload c.opts.window (c.retryDue t)).2 with
        | none =>
          have hn' : (w.next file (v.transfer c).bs c.opts.window (c.retryDue t)).2 = none := hn
          rw [g3, hn']
          rfl
        | some x =>
          have hn' : (w.next file (v.transfer c).bs c.opts.window (c.retryDue t)).2 = some x := hn
          rw [g3, hn']
          obtain ⟨i, y⟩ := x
          simp only
          split
          · simp only [Cfg.emit, Option.map_map, Function.comp_def, Option.map_id']
            rfl
          · rfl
      · simp only [g1, hf, Bool.not_false, Bool.and_true, Option.isSome_map, e4]

/-- What a datagram from the client does. -/
theorem serves_handle {S} (v : Srv S) {file : Bytes} {c : Conn} {s : SendSt} {w : Spec.Window} (h : Serves file c s w)
    (t : Nat) (dg : Bytes) (io : RecvIo) :
    ∃ s' w', Serves file (v.handle c t dg io).1 s' w' ∧ (v.handle c t dg io).1.lastSent = c.lastSent := by
  obtain ⟨hs, h0, hwin, ⟨h1, h2⟩, h3, h4, h5⟩ := h
  have hpb := payload_bounds h0
  have key : ∀ s', serverSendRecv (v.transfer c) s dg = s' → ∃ w',
      (s'.failed = false → ∃ m, ReaderSim file c.opts.payload c.opts.window m s'.reader w') ∧
      (s'.failed = false → s'.total = Spec.bytesIn file c.opts.payload w'.base) ∧
      (s'.failed = false → s'.finished = false → w'.base < Spec.nblocks file c.opts.payload) := by
    intro s' hs'
    subst hs'
    unfold serverSendRecv
    split
    · exact ⟨w, h3, h4, h5⟩
    · split
      · rename_i blk hb
        simp only
        split
        · exact ⟨w, (fun h => by cases h), (fun h => by cases h), (fun h => by cases h)⟩
        · rename_i n hn
          by_cases hf : s.failed = true
          · exact ⟨w, (fun h => by rw [hf] at h; cases h), (fun h => by rw [hf] at h; cases h), (fun h => by rw [hf] at h; cases h)⟩
          · have hf : s.failed = false := by simpa using hf
            obtain ⟨m, hsim⟩ := h3 hf
            rcases free_exact hpb.1 hsim blk.toNat with h6 | ⟨w', n', h6, h7, h8, h9⟩
            · rw [hn] at h6; cases h6
            · rw [hn] at h6
              cases h6
              refine ⟨w', fun _ => ⟨_, h7⟩, fun _ => ?_, fun _ hfin => ?_⟩
              · rw [h9, h4 hf]
              · simp only [Bool.or_eq_false_iff] at hfin
                have h10 := h7.finished
                rw [hfin.2] at h10
                have hinv := h7.inv
                by_cases hlt : w'.base < Spec.nblocks file c.opts.payload
                · exact hlt
                · exfalso
                  obtain ⟨i1, i2, i3, i4⟩ := hinv
                  have : Spec.Window.finished file c.opts.payload w' := ⟨by omega, by omega⟩
                  simp [this] at h10
      · exact ⟨w, (fun h => by cases h), (fun h => by cases h), (fun h => by cases h)⟩
      · exact ⟨w, h3, h4, h5⟩
  obtain ⟨w', k1, k2, k3⟩ := key _ rfl
  unfold Srv.handle
  rw [hs]
  simp only
  split
  · refine ⟨_, w', ⟨rfl, h0, hwin, ?_, k1, k2, k3⟩, rfl⟩
    simp only; split <;> omega
  · exact ⟨_, w', ⟨rfl, h0, hwin, ⟨h1, h2⟩, k1, k2, k3⟩, rfl⟩

/-- One event. -/
theorem serves_step {S} (v : Srv S) (stops : Bool) {file : Bytes} {c : Conn} {s : SendSt} {w : Spec.Window} (h : Serves file c s w)
    (e : LifeEv) (c' : Conn) (hc : (v.lifeStep stops (some c) e).1 = some c') : ∃ s' w', Serves file c' s' w' := by
  cases e with
  | start t dg io => cases hc; exact ⟨s, w, h⟩
  | drop => cases hc
  | check t io =>
    simp only [Srv.lifeStep] at hc
    split at hc
    · cases hc
    · cases hc; exact ⟨s, w, h⟩
  | recv t dg io =>
    simp only [Srv.lifeStep] at hc
    split at hc
    · cases hc; exact ⟨s, w, h⟩
    · cases hc
      obtain ⟨s', w', h1, -⟩ := serves_handle v h t dg io
      exact ⟨s', w', h1⟩
  | tick t io =>
    simp only [Srv.lifeStep] at hc
    split at hc
    · rename_i ha
      cases hc
      have hf : s.failed = false := by
        unfold Conn.active Conn.failed at ha
        rw [h.side] at ha
        simp only [Bool.not_eq_true', Bool.or_eq_false_iff] at ha
        exact ha.1
      obtain ⟨s', w', h1, -⟩ := serves_turn v h hf t io
      exact ⟨s', w', h1⟩
    · cases hc; exact ⟨s, w, h⟩

theorem serves_run {S} (v : Srv S) (stops : Bool) {file : Bytes} {c : Conn} {s : SendSt} {w : Spec.Window} (h : Serves file c s w)
    (es : List LifeEv) (hl : ∀ e ∈ es, e.later) (c' : Conn) (hc : (v.lifeRun stops (some c) es).1 = some c') :
    ∃ s' w', Serves file c' s' w' := by
  induction es generalizing c s w with
  | nil => cases hc; exact ⟨s, w, h⟩
  | cons e r ih =>
    simp only [Srv.lifeRun] at hc
    cases hx : (v.lifeStep stops (some c) e).1 with
    | none => rw [hx, none_later v stops r (fun e he => hl e (by simp [he]))] at hc; cases hc
    | some c1 =>
      rw [hx] at hc
      obtain ⟨s1, w1, h1⟩ := serves_step v stops h e c1 hx
      exact ih h1 (fun e he => hl e (by simp [he])) hc

/-- An accepted read request: the connection serves the file which was opened. -/
theorem serves_new {S} (v : Srv S) (hb : 512 ≤ v.cfg.maxBlock) (hw : 1 ≤ v.cfg.maxWindow) {t : Nat} {dg : Bytes} {io : NewIo} {c : Conn}
    {out : List Bytes} (hnew : (v.newConn t dg io).result = .ok (c, out)) :
    c.lastSent = t ∧ ((∃ s, c.side = .writer s) ∨
    ∃ name size file s, io.openRead name = some (size, file) ∧ Serves file c s Spec.Window.init) := by
  have hinv := connInv_new v hb hw t dg io c out hnew
  obtain ⟨write, r, used, keys, name, kind, -, g2, -, -, g5, -, g7, g8, -, -⟩ := newConn_ok hnew
  obtain ⟨-, f2, -, -⟩ := c16_server_limits v.cfg hb hw io.sessionPub _ r.exts kind used c.opts keys g2
  refine ⟨g7, ?_⟩
  split at g5
  · exact .inl ⟨_, g5.2.2⟩
  · obtain ⟨size, file, g6, -, g⟩ := g5
    right
    refine ⟨name, size, file, _, g6, g, hinv.1, by omega, by omega, fun _ => ⟨_, ReaderSim.init _ file c.opts.payload c.opts.window ?_⟩, ?_, ?_⟩
    · unfold Srv.kind
      split
      · intro h; cases h
      · split
        · intro _; assumption
        · intro h; cases h
    · intro _; simp [Spec.Window.init, Spec.bytesIn]
    · intro _ _; exact Spec.nblocks_pos _ _

/-! ### When it sent last -/

theorem handle_lastSent {S} (v : Srv S) (c : Conn) (t : Nat) (dg : Bytes) (io : RecvIo) : (v.handle c t dg io).1.lastSent = c.lastSent := by
  unfold Srv.handle
  split
  · simp only; split <;> rfl
  · rfl

theorem active_reader {c : Conn} {s : SendSt} (hs : c.side = .reader s) : c.active = !(s.failed || s.finished) := by
  unfold Conn.active Conn.failed Conn.finished
  rw [hs]

/-- A download which has ended does not come back. -/
theorem ended_step {S} (v : Srv S) (stops : Bool) {c : Conn} {s : SendSt} (hs : c.side = .reader s) (h : c.active = false) (e : LifeEv)
    (c' : Conn) (hc : (v.lifeStep stops (some c) e).1 = some c') : (∃ s', c'.side = .reader s') ∧ c'.active = false := by
  cases e with
  | start t dg io => cases hc; exact ⟨⟨s, hs⟩, h⟩
  | drop => cases hc
  | check t io =>
    simp only [Srv.lifeStep] at hc
    split at hc
    · cases hc
    · cases hc; exact ⟨⟨s, hs⟩, h⟩
  | tick t io =>
    simp only [Srv.lifeStep, h, Bool.false_eq_true, if_false] at hc
    cases hc; exact ⟨⟨s, hs⟩, h⟩
  | recv t dg io =>
    simp only [Srv.lifeStep] at hc
    split at hc
    · cases hc; exact ⟨⟨s, hs⟩, h⟩
    · cases hc
      rw [active_reader hs] at h
      have key : ∀ s', serverSendRecv (v.transfer c) s dg = s' → (!(s'.failed || s'.finished)) = false := by
        intro s' hs'
        subst hs'
        unfold serverSendRecv
        split
        · exact h
        · split
          · simp only
            split
            · rfl
            · simp only
              cases hf : s.failed
              · rw [hf] at h
                simp only [Bool.false_or, Bool.not_eq_false'] at h
                simp [h]
              · rfl
          · rfl
          · exact h
      unfold Srv.handle
      rw [hs]
      simp only
      split
      · exact ⟨⟨_, rfl⟩, by rw [active_reader rfl]; exact key _ rfl⟩
      · exact ⟨⟨_, rfl⟩, by rw [active_reader rfl]; exact key _ rfl⟩

theorem ended_run {S} (v : Srv S) (stops : Bool) {c : Conn} {s : SendSt} (hs : c.side = .reader s) (h : c.active = false)
    (es : List LifeEv) (hl : ∀ e ∈ es, e.later) (c' : Conn) (hc : (v.lifeRun stops (some c) es).1 = some c') : c'.active = false := by
  induction es generalizing c s with
  | nil => cases hc; exact h
  | cons e r ih =>
    have hl' : ∀ e ∈ r, e.later := fun e he => hl e (by simp [he])
    simp only [Srv.lifeRun] at hc
    cases hx : (v.lifeStep stops (some c) e).1 with
    | none => rw [hx, none_later v stops r hl'] at hc; cases hc
    | some c1 =>
      rw [hx] at hc
      obtain ⟨⟨s1, h1⟩, h2⟩ := ended_step v stops hs h e c1 hx
      exact ih h1 h2 hl' hc

theorem lastSent_run {S} (v : Srv S) (stops : Bool) {file : Bytes} {c : Conn} {s : SendSt} {w : Spec.Window} (h : Serves file c s w)
    (es : List LifeEv) (hl : ∀ e ∈ es, e.later) (c' : Conn) (hc : (v.lifeRun stops (some c) es).1 = some c') (ha : c'.active = true) :
    c'.lastSent = Spec.sentLast v stops (some c) c.lastSent es := by
  induction es generalizing c s w with
  | nil => cases hc; rfl
  | cons e r ih =>
    have hl' : ∀ e ∈ r, e.later := fun e he => hl e (by simp [he])
    simp only [Srv.lifeRun] at hc
    cases hx : (v.lifeStep stops (some c) e).1 with
    | none => rw [hx, none_later v stops r hl'] at hc; cases hc
    | some c1 =>
      rw [hx] at hc
      obtain ⟨s1, w1, h1⟩ := serves_step v stops h e c1 hx
      rw [ih h1 hl' hc]
      cases e with
      | start t dg io => cases hx; rfl
      | drop => cases hx
      | check t io =>
        simp only [Spec.sentLast, hx]
        simp only [Srv.lifeStep] at hx
        split at hx
        · cases hx
        · cases hx; rfl
      | recv t dg io =>
        simp only [Spec.sentLast, hx]
        simp only [Srv.lifeStep] at hx
        split at hx
        · cases hx; rfl
        · cases hx; rw [handle_lastSent]
      | tick t io =>
        simp only [Spec.sentLast, hx]
        by_cases hact : c.active = true
        · have hf : s.failed = false := by
            unfold Conn.active Conn.failed at hact
            rw [h.side] at hact
            simp only [Bool.not_eq_true', Bool.or_eq_false_iff] at hact
            exact hact.1
          obtain ⟨s', w', k1, -, -, -, -, k2⟩ := serves_turn v h hf t io
          simp only [Srv.lifeStep, if_pos hact] at hx ⊢
          cases hx
          by_cases hf' : s'.failed = true
          · have := ended_run v stops k1.side (by rw [active_reader k1.side, hf']; rfl) r hl' c' hc
            rw [ha] at this; cases this
          · rw [(k2 (by simpa using hf')).2.2]
            cases (v.sendBlock c t io).2.1 <;> rfl
        · simp only [Srv.lifeStep, if_neg hact] at hx ⊢
          cases hx
          rfl

/-! ### The theorems -/

theorem unfinished {c : Conn} {s : SendSt} (hs : c.side = .reader s) (ha : c.active = true) : s.failed = false ∧ s.finished = false := by
  rw [active_reader hs] at ha
  simpa using ha

theorem writer_stays {S} (v : Srv S) (stops : Bool) : ∀ es : List LifeEv, (∀ e ∈ es, e.later) → ∀ c0 : Conn,
    (∃ s, c0.side = .writer s) → ∀ c, (v.lifeRun stops (some c0) es).1 = some c → ∃ s, c.side = .writer s := by
  intro es
  induction es with
  | nil => intro _ c0 h c hc; cases hc; exact h
  | cons e r ih =>
    intro hl c0 ⟨s, h⟩ c hc
    have hl' : ∀ e ∈ r, e.later := fun e he => hl e (by simp [he])
    simp only [Srv.lifeRun] at hc
    cases hx : (v.lifeStep stops (some c0) e).1 with
    | none => rw [hx, none_later v stops r hl'] at hc; cases hc
    | some c1 =>
      rw [hx] at hc
      refine ih hl' c1 ?_ c hc
      cases e with
      | start t dg io => cases hx; exact ⟨s, h⟩
      | drop => cases hx
      | check t io =>
        simp only [Srv.lifeStep] at hx
        split at hx
        · cases hx
        · cases hx; exact ⟨s, h⟩
      | tick t io =>
        have : c0.active = false := by unfold Conn.active; rw [h]
        simp only [Srv.lifeStep, this, Bool.false_eq_true, if_false] at hx
        cases hx; exact ⟨s, h⟩
      | recv t dg io =>
        simp only [Srv.lifeStep] at hx
        split at hx
        · cases hx; exact ⟨s, h⟩
        · cases hx
          unfold Srv.handle
          rw [h]
          exact ⟨_, rfl⟩

/-- **C39**, retransmission never stops: take any download the server has accepted, after any history. If it is neither finished nor
failed and has sent nothing for more than 255 times the negotiated timeout, its next turn sends the block right after the bytes the client
has confirmed (if the file can be read and the packet sent). -/
theorem c39_goes_back {S} (v : Srv S) (hb : 512 ≤ v.cfg.maxBlock) (hw : 1 ≤ v.cfg.maxWindow) (stops : Bool) (t0 : Nat) (dg : Bytes)
    (io0 : NewIo) (c0 : Conn) (out : List Bytes) (hnew : (v.newConn t0 dg io0).result = .ok (c0, out))
    (es : List LifeEv) (hl : ∀ e ∈ es, e.later) (c : Conn) (hc : (v.lifeRun stops (some c0) es).1 = some c) (ha : c.active = true) :
    ∃ name size file s, io0.openRead name = some (size, file) ∧ c.side = .reader s ∧
      s.total ≤ file.length ∧ s.total % c.opts.payload = 0 ∧
      ∀ t io, io.fail = false → io.net = .sent → 255 * c.opts.retry < t - Spec.sentLast v stops (some c0) t0 es →
        ∀ d, d ∈ (v.lifeStep stops (some c) (.tick t io)).2 ↔
          Spec.CarriesBlock v c io.nonce file (s.total / c.opts.payload + 1) d := by
  obtain ⟨hls, hserve⟩ := serves_new v hb hw hnew
  rcases hserve with ⟨s, hs⟩ | ⟨name, size, file, s0, hopen, h0⟩
  · exfalso
    obtain ⟨s', h'⟩ := writer_stays v stops es hl c0 ⟨s, hs⟩ c hc
    unfold Conn.active at ha
    rw [h'] at ha
    cases ha
  · obtain ⟨s, w, h⟩ := serves_run v stops h0 es hl c hc
    have hlast := lastSent_run v stops h0 es hl c hc ha
    rw [hls] at hlast
    obtain ⟨hf, hfin⟩ := unfinished h.side ha
    have hpb := payload_bounds h.bs
    have hopen' := h.open_ hf hfin
    have htot : s.total = w.base * c.opts.payload := by
      rw [h.total hf, Spec.bytesIn_lt_nblocks _ _ _ hpb.1 hopen']
    have hdiv : s.total / c.opts.payload = w.base := by rw [htot]; exact Nat.mul_div_cancel _ hpb.1
    refine ⟨name, size, file, s, hopen, h.side, ?_, ?_, ?_⟩
    · rw [h.total hf]; unfold Spec.bytesIn; omega
    · rw [htot]; exact Nat.mul_mod_left _ _
    · intro t io hfail hnet ht d
      rw [← hlast] at ht
      have hdue : c.retryDue t = true := by
        unfold Conn.retryDue
        have : c.opts.retry * c.mult ≤ c.opts.retry * 255 := Nat.mul_le_mul_left _ h.mult.2
        simp only [gt_iff_lt, decide_eq_true_eq]
        omega
      obtain ⟨s', w', -, -, -, -, k1, k2⟩ := serves_turn v h hf t io
      obtain ⟨-, k3, -⟩ := k2 (k1 hfail)
      obtain ⟨m, hsim⟩ := h.sim hf
      obtain ⟨i1, i2, i3, i4⟩ := hsim.inv
      have hwin := h.win
      have hnext : ∃ y, (w.next file c.opts.payload c.opts.window (c.retryDue t)).2 = some (w.base + 1, y) := by
        rw [hdue]
        unfold Spec.Window.next
        by_cases hlt : w.base < w.top
        · rw [if_pos ⟨rfl, hlt⟩]; exact ⟨_, rfl⟩
        · rw [if_neg (by omega), if_neg (by omega), if_pos (by omega)]
          exact ⟨_, by rw [show w.top = w.base by omega]⟩
      obtain ⟨y, hnext⟩ := hnext
      rw [hnext] at k3
      simp only [hnet, if_true] at k3
      simp only [Srv.lifeStep, if_pos ha, Option.mem_toList]
      rw [k3, hdiv]
      simp only [Spec.CarriesBlock, Spec.block, Nat.add_sub_cancel]

/-- A span without datagrams from the client and shorter than the timeout: the window goes on. -/
theorem serves_quiet {S} (v : Srv S) (stops : Bool) (t1 k : Nat) {file : Bytes} (es : List LifeEv) (hq : ∀ e ∈ es, Spec.Silent e)
    {c : Conn} {s : SendSt} {w : Spec.Window} (h : Serves file c s w) (hk : k ≤ w.cur)
    (htime : ∀ e ∈ es, ∀ t, e.time = some t → t1 ≤ t ∧ t ≤ t1 + c.opts.retry)
    (h1 : t1 ≤ c.lastSent) (c' : Conn) (hc : (v.lifeRun stops (some c) es).1 = some c') (ha : c'.active = true) :
    ∃ s' w', Serves file c' s' w' ∧ k ≤ w'.cur ∧ w'.base = w.base ∧ t1 ≤ c'.lastSent ∧ c'.opts = c.opts ∧
      v.transfer c' = v.transfer c := by
  induction es generalizing c s w with
  | nil => cases hc; exact ⟨s, w, h, hk, rfl, h1, rfl, rfl⟩
  | cons e r ih =>
    have hq' : ∀ e ∈ r, Spec.Silent e := fun e he => hq e (by simp [he])
    have hl' : ∀ e ∈ r, e.later := fun e he => by have := hq' e he; cases e <;> first | trivial | cases this
    have htime' : ∀ e ∈ r, ∀ t, e.time = some t → t1 ≤ t ∧ t ≤ t1 + c.opts.retry := fun e he => htime e (by simp [he])
    simp only [Srv.lifeRun] at hc
    cases hx : (v.lifeStep stops (some c) e).1 with
    | none => rw [hx, none_later v stops r hl'] at hc; cases hc
    | some c1 =>
      rw [hx] at hc
      have he := hq e (by simp)
      cases e with
      | start t dg io => cases he
      | recv t dg io => cases he
      | drop => cases hx
      | check t io =>
        simp only [Srv.lifeStep] at hx
        split at hx
        · cases hx
        · cases hx; exact ih hq' h hk htime' h1 hc
      | tick t io =>
        by_cases hact : c.active = true
        · simp only [Srv.lifeStep, if_pos hact] at hx
          cases hx
          obtain ⟨hf, -⟩ := unfinished h.side hact
          obtain ⟨s', w', k1, k2, -, k3, -, k4⟩ := serves_turn v h hf t io
          by_cases hf' : s'.failed = true
          · have := ended_run v stops k1.side (by rw [active_reader k1.side, hf']; rfl) r hl' c' hc
            rw [ha] at this; cases this
          · obtain ⟨k5, -, k6⟩ := k4 (by simpa using hf')
            obtain ⟨m, hsim⟩ := h.sim hf
            obtain ⟨ht1, ht2⟩ := htime _ List.mem_cons_self t rfl
            have hdue : c.retryDue t = false := by
              unfold Conn.retryDue
              have : c.opts.retry * 1 ≤ c.opts.retry * c.mult := Nat.mul_le_mul_left _ h.mult.1
              simp only [gt_iff_lt, decide_eq_false_iff_not]
              omega
            have hm := next_moves hsim.inv (c.retryDue t)
            obtain ⟨s2, w2, g1, g2, g3, g4, g5, g6⟩ := ih hq' k1 (by rw [k5]; have := hm.2.2 hdue; omega)
              (by rw [k2]; exact htime') (by rw [k6]; split <;> omega) hc
            exact ⟨s2, w2, g1, g2, by rw [g3, k5, hm.1], g4, by rw [g5, k2], by rw [g6, k3]⟩
        · simp only [Srv.lifeStep, if_neg hact] at hx
          cases hx
          exact ih hq' h hk htime' h1 hc

/-- **C39**, retransmission is never faster than the negotiated timeout: take any download the server has accepted, after any history, and
a turn at time `t1` which sends a block. As long as at most the negotiated timeout passes and nothing arrives from the client, every
other block it sends is a later one of the same window: no block is sent twice. -/
theorem c39_not_early {S} (v : Srv S) (hb : 512 ≤ v.cfg.maxBlock) (hw : 1 ≤ v.cfg.maxWindow) (stops : Bool) (t0 : Nat) (dg : Bytes)
    (io0 : NewIo) (c0 : Conn) (out : List Bytes) (hnew : (v.newConn t0 dg io0).result = .ok (c0, out))
    (es : List LifeEv) (hl : ∀ e ∈ es, e.later) (c : Conn) (hc : (v.lifeRun stops (some c0) es).1 = some c)
    (t1 : Nat) (io1 : SendIo) (hio1 : io1.fail = false) (d1 : Bytes) (hd1 : d1 ∈ (v.lifeStep stops (some c) (.tick t1 io1)).2)
    (es' : List LifeEv) (hq : ∀ e ∈ es', Spec.Silent e) (htime : ∀ e ∈ es', ∀ t, e.time = some t → t1 ≤ t ∧ t ≤ t1 + c.opts.retry)
    (t2 : Nat) (ht2 : t1 ≤ t2 ∧ t2 ≤ t1 + c.opts.retry) (io2 : SendIo) (hio2 : io2.fail = false) (d2 : Bytes)
    (hd2 : d2 ∈ (v.lifeStep stops (v.lifeRun stops (some c) (.tick t1 io1 :: es')).1 (.tick t2 io2)).2) :
    ∃ name size file k1 k2, io0.openRead name = some (size, file) ∧ k1 < k2 ∧ k2 < k1 + c.opts.window ∧
      Spec.CarriesBlock v c io1.nonce file k1 d1 ∧ Spec.CarriesBlock v c io2.nonce file k2 d2 := by
  obtain ⟨hls, hserve⟩ := serves_new v hb hw hnew
  have hact : c.active = true := by
    by_cases ha : c.active = true
    · exact ha
    · simp only [Srv.lifeStep, if_neg ha] at hd1; cases hd1
  rcases hserve with ⟨s, hs⟩ | ⟨name, size, file, s0, hopen, h0⟩
  · exfalso
    obtain ⟨s', h'⟩ := writer_stays v stops es hl c0 ⟨s, hs⟩ c hc
    unfold Conn.active at hact
    rw [h'] at hact
    cases hact
  · obtain ⟨s, w, h⟩ := serves_run v stops h0 es hl c hc
    obtain ⟨hf, -⟩ := unfinished h.side hact
    obtain ⟨m, hsim⟩ := h.sim hf
    obtain ⟨s1, w1, k1, k2, -, k3, k4, k5⟩ := serves_turn v h hf t1 io1
    obtain ⟨k6, k7, k8⟩ := k5 (k4 hio1)
    simp only [Srv.lifeStep, if_pos hact, Option.mem_toList] at hd1
    simp only [Srv.lifeRun, Srv.lifeStep, if_pos hact] at hd2
    rw [hd1] at k7 k8
    cases hn : (w.next file c.opts.payload c.opts.window (c.retryDue t1)).2 with
    | none => rw [hn] at k7; cases k7
    | some x =>
      obtain ⟨i, y⟩ := x
      rw [hn] at k7
      simp only at k7
      split at k7
      · have hcur : i = w1.cur ∧ w.base + 1 ≤ i := by
          rw [k6]
          unfold Spec.Window.next at hn ⊢
          obtain ⟨i1, i2, i3, i4⟩ := hsim.inv
          split at hn
          · rename_i hh; rw [if_pos hh]; simp only [Option.some.injEq, Prod.mk.injEq] at hn; exact ⟨hn.1.symm, by omega⟩
          · rename_i hh
            rw [if_neg hh]
            split at hn
            · rename_i hh; rw [if_pos hh]; simp only [Option.some.injEq, Prod.mk.injEq] at hn; exact ⟨hn.1.symm, by omega⟩
            · rename_i hh
              rw [if_neg hh]
              split at hn
              · rename_i hh; rw [if_pos hh]; simp only [Option.some.injEq, Prod.mk.injEq] at hn; exact ⟨hn.1.symm, by omega⟩
              · cases hn
        have hbase : w1.base = w.base := by rw [k6]; exact (next_moves hsim.inv _).1
        cases hx : (v.lifeRun stops (some (v.sendBlock c t1 io1).1) es').1 with
        | none => rw [hx] at hd2; cases hd2
        | some c2 =>
          rw [hx] at hd2
          by_cases ha2 : c2.active = true
          · simp only [if_pos ha2, Option.mem_toList] at hd2
            obtain ⟨s2, w2, g1, g2, g3, g4, g5, g6⟩ := serves_quiet v stops t1 i es' hq k1 (by omega) (by rw [k2]; exact htime)
              (by rw [k8]; simp) c2 hx ha2
            obtain ⟨hf2, -⟩ := unfinished g1.side ha2
            obtain ⟨m2, hsim2⟩ := g1.sim hf2
            obtain ⟨s3, w3, q1, q2, -, q3, q4, q5⟩ := serves_turn v g1 hf2 t2 io2
            obtain ⟨q6, q7, -⟩ := q5 (q4 hio2)
            rw [hd2] at q7
            have hopts : c2.opts = c.opts := by rw [g5, k2]
            have htr : v.transfer c2 = v.transfer c := by rw [g6, k3]
            have hdue : c2.retryDue t2 = false := by
              unfold Conn.retryDue
              have : c2.opts.retry * 1 ≤ c2.opts.retry * c2.mult := Nat.mul_le_mul_left _ g1.mult.1
              rw [← hopts] at ht2
              simp only [gt_iff_lt, decide_eq_false_iff_not]
              omega
            cases hn2 : (w2.next file c2.opts.payload c2.opts.window (c2.retryDue t2)).2 with
            | none => rw [hn2] at q7; cases q7
            | some x =>
              obtain ⟨j, y2⟩ := x
              rw [hn2] at q7
              simp only at q7
              split at q7
              · have hinv := hsim2.inv
                have hj : w2.cur < j ∧ j ≤ w2.base + c2.opts.window := by
                  obtain ⟨i1, i2, i3, i4⟩ := hinv
                  unfold Spec.Window.next at hn2
                  rw [hdue] at hn2
                  simp only [Bool.false_eq_true, false_and, if_false] at hn2
                  split at hn2
                  · simp only [Option.some.injEq, Prod.mk.injEq] at hn2; omega
                  · split at hn2
                    · simp only [Option.some.injEq, Prod.mk.injEq] at hn2; omega
                    · cases hn2
                refine ⟨name, size, file, i, j, hopen, by omega, ?_, k7.symm, ?_⟩
                · rw [hopts] at hj; omega
                · rw [htr, hopts] at q7
                  exact q7.symm
              · cases q7
          · simp only [if_neg ha2] at hd2
            cases hd2
      · cases k7

end Tftp

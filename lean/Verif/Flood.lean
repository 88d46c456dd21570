import Verif.Life
import Verif.ServerTimers
/-
C69: what the server sends to a client which does not answer (src/server/helpers/read.rs:25-85, src/server/helpers/connection.rs:135-164).
A request can be sent under somebody else's address; these theorems bound what the server sends there. They speak about the life of
one connection (Life.lean), which by C50 is what each address sees of either server.
-/
namespace Tftp

/-! ### Specification -/

/-- Nothing arrives from the client. -/
def Spec.Silent : LifeEv → Prop
  | .tick .. => True
  | .check .. => True
  | .drop => True
  | .start .. => False
  | .recv .. => False

/-- When an event happens. -/
def LifeEv.time : LifeEv → Option Nat
  | .start t _ _ => some t
  | .tick t _ => some t
  | .recv t _ _ => some t
  | .check t _ => some t
  | .drop => none

/-- The pauses before `n` retransmissions, in units of the retry interval: 1, 3, 5, ..., at most 255. -/
def Spec.backoff : Nat → Nat
  | 0 => 0
  | n + 1 => Spec.backoff n + min 255 (2 * n + 1)

/-! ### One turn -/

/-- A turn of a reader which has not failed: it fails, or the window moves on. -/
theorem turn_cases {S} (v : Srv S) {c : Conn} {s : SendSt} (hbs : 512 ≤ c.opts.blockSize) (hs : c.side = .reader s) (hf : s.failed = false)
    {file : Bytes} {m : Mapper} {w : Spec.Window} (h : ReaderSim file c.opts.payload c.opts.window m s.reader w) (t : Nat) (io : SendIo) :
    (∃ s', (v.sendBlock c t io).1.side = .reader s' ∧ (s'.failed || s'.finished) = true) ∨
    (∃ s', (v.sendBlock c t io).1.side = .reader s' ∧ s'.failed = false ∧
      ReaderSim file c.opts.payload c.opts.window m s'.reader
        (w.next file c.opts.payload c.opts.window (decide (t - c.lastSent > c.opts.retry * c.mult))).1 ∧
      (v.sendBlock c t io).1.opts = c.opts ∧
      (v.sendBlock c t io).1.mult = (if t - c.lastSent > c.opts.retry * c.mult then min 255 (c.mult + 2) else c.mult) ∧
      (((v.sendBlock c t io).2.1 = none ∧ (v.sendBlock c t io).1.lastSent = c.lastSent) ∨
       ((∃ d, (v.sendBlock c t io).2.1 = some d) ∧ (v.sendBlock c t io).1.lastSent = t ∧
        (w.next file c.opts.payload c.opts.window (decide (t - c.lastSent > c.opts.retry * c.mult))).2.isSome = true))) := by
  unfold Srv.sendBlock
  rw [hs]
  simp only
  rw [← hs]
  change _ ∨ _
  rw [show c.retryDue t = decide (t - c.lastSent > c.opts.retry * c.mult) from rfl]
  generalize hr : decide (t - c.lastSent > c.opts.retry * c.mult) = retry
  generalize hc1 : (if retry = true then { c with mult := min 255 (c.mult + 2) } else c) = c1
  have e1 : c1.opts = c.opts := by rw [← hc1]; split <;> rfl
  have e2 : c1.lastSent = c.lastSent := by rw [← hc1]; split <;> rfl
  have e3 : c1.mult = (if t - c.lastSent > c.opts.retry * c.mult then min 255 (c.mult + 2) else c.mult) := by
    rw [← hc1]
    by_cases hx : t - c.lastSent > c.opts.retry * c.mult
    · rw [if_pos hx, if_pos (by rw [← hr]; simpa using hx)]
    · rw [if_neg hx, if_neg (by rw [← hr]; simpa using hx)]
  have hpb := payload_bounds hbs
  have hsim' : ReaderSim file (v.transfer c1).bs c.opts.window m s.reader w := by
    simp only [Srv.transfer, e1]; exact h
  rcases sendTick_sim (c := v.transfer c1) (by simp only [Srv.transfer, e1]; exact hpb.1)
    (by simp only [Srv.transfer, e1]; exact hpb.2) hsim' retry io.fail io.net io.nonce with ⟨h4, -⟩ | ⟨h4, h5, h6⟩
  · exact .inl ⟨_, rfl, by rw [h4]; rfl⟩
  · right
    rw [hf] at h4
    refine ⟨_, rfl, h4, ?_, e1, e3, ?_⟩
    · simp only [Srv.transfer, e1] at h5 ⊢
      exact h5
    · generalize hx : serverSendTick (v.transfer c1) s retry io.fail io.net io.nonce = x at h4 h6
      obtain ⟨s', d⟩ := x
      simp only at h4 h6 ⊢
      cases d with
      | none => exact .inl ⟨rfl, by simp [e2]⟩
      | some d =>
        refine .inr ⟨⟨_, rfl⟩, by simp [h4], ?_⟩
        simp only [Srv.transfer, e1] at h6
        cases hn : (w.next file c.opts.payload c.opts.window retry).2 with
        | none => rw [hn] at h6; cases h6
        | some y => rfl

theorem silent_none {S} (v : Srv S) (stops : Bool) (es : List LifeEv) (hq : ∀ e ∈ es, Spec.Silent e) :
    (v.lifeRun stops none es).2 = [] := by
  induction es with
  | nil => rfl
  | cons f es ih =>
    have hf := hq f List.mem_cons_self
    have := ih fun y hy => hq y (List.mem_cons_of_mem f hy)
    cases f <;> first | exact hf.elim | simpa [Srv.lifeRun, Srv.lifeStep] using this

/-- A connection which has failed or finished sends nothing more to a silent client. -/
theorem silent_over {S} (v : Srv S) (stops : Bool) (es : List LifeEv) (hq : ∀ e ∈ es, Spec.Silent e) (c : Conn)
    (h : c.failed = true ∨ c.finished = true) : (v.lifeRun stops (some c) es).2 = [] := by
  have h' : (c.failed || c.finished) = true := by rcases h with h | h <;> simp [h]
  induction es with
  | nil => rfl
  | cons e es ih =>
    have hq' := fun y hy => hq y (List.mem_cons_of_mem e hy)
    have he := hq e List.mem_cons_self
    cases e with
    | start => exact he.elim
    | recv => exact he.elim
    | drop => simp [Srv.lifeRun, Srv.lifeStep, silent_none v stops es hq']
    | tick t io =>
      have ha : c.active = false := by
        unfold Conn.active
        cases c.side with
        | writer s => rfl
        | reader s => simp only [h']; rfl
      simp only [Srv.lifeRun, Srv.lifeStep, ha, Bool.false_eq_true, if_false, List.nil_append]
      exact ih hq'
    | check t io =>
      have ht : v.timeout c t io = (true, none) := by unfold Srv.timeout; rw [if_pos h']
      simp [Srv.lifeRun, Srv.lifeStep, ht, silent_none v stops es hq']

/-- What a check does to a silent client. -/
theorem check_cases {S} (v : Srv S) (c : Conn) (t : Nat) (io : RecvIo) :
    ((v.timeout c t io).1 = true ∧ (v.timeout c t io).2.toList.length ≤ 1) ∨ ((v.timeout c t io).1 = false ∧ (v.timeout c t io).2 = none) := by
  unfold Srv.timeout
  split
  · exact .inl ⟨rfl, by simp⟩
  · split
    · exact .inr ⟨rfl, rfl⟩
    · refine .inl ⟨rfl, ?_⟩
      generalize (if io.sendOk = true then (v.transfer c).codec.enc io.nonce (Packet.error .accessViolation []).toBytes else none) = z
      cases z <;> simp

theorem next_moves {file : Bytes} {bs W : Nat} {w : Spec.Window} (hinv : Spec.Window.Inv file bs W w) (retry : Bool) :
    (w.next file bs W retry).1.base = w.base ∧ ((w.next file bs W retry).2.isSome = true →
      w.base + 1 ≤ (w.next file bs W retry).1.cur ∧ (retry = false → (w.next file bs W retry).1.cur = w.cur + 1)) ∧
    (retry = false → w.cur ≤ (w.next file bs W retry).1.cur) := by
  obtain ⟨h1, h2, h3, h4⟩ := hinv
  unfold Spec.Window.next
  split
  · rename_i h
    refine ⟨rfl, fun _ => ⟨Nat.le_refl _, ?_⟩, ?_⟩ <;> (intro hr; rw [hr] at h; simp at h)
  · split
    · exact ⟨rfl, fun _ => ⟨by simp; omega, fun _ => rfl⟩, fun _ => by simp⟩
    · split
      · exact ⟨rfl, fun _ => ⟨by simp; omega, fun _ => by simp; omega⟩, fun _ => by simp; omega⟩
      · exact ⟨rfl, (fun h => by cases h), fun _ => Nat.le_refl _⟩

/-- A connection which sends a file in good order. -/
structure OutFlow (c : Conn) (w : Spec.Window) (file : Bytes) : Prop where
  side : ∃ s m, c.side = .reader s ∧ s.failed = false ∧ ReaderSim file c.opts.payload c.opts.window m s.reader w
  bs : 512 ≤ c.opts.blockSize
  mult : 1 ≤ c.mult

theorem OutFlow.inv {c w file} (h : OutFlow c w file) : Spec.Window.Inv file c.opts.payload c.opts.window w := by
  obtain ⟨s, m, -, -, h⟩ := h.side
  exact h.inv

theorem sendBlock_len {S} (v : Srv S) (c : Conn) (t : Nat) (io : SendIo) : (v.sendBlock c t io).2.1.toList.length ≤ 1 := by
  cases (v.sendBlock c t io).2.1 <;> simp

/-- One event of a silent client: the connection is over (with at most one last message), or nothing happens, or the window moves on. -/
theorem silent_step {S} (v : Srv S) (stops : Bool) {c : Conn} {w : Spec.Window} {file : Bytes} (h : OutFlow c w file) (e : LifeEv)
    (he : Spec.Silent e) :
    ((v.lifeStep stops (some c) e).2.length ≤ 1 ∧ ∀ es, (∀ e ∈ es, Spec.Silent e) →
      (v.lifeRun stops (v.lifeStep stops (some c) e).1 es).2 = []) ∨
    (v.lifeStep stops (some c) e = (some c, []) ∧ ∀ t io, e = .check t io → t - c.lastUpdated ≤ v.cfg.requestTimeout) ∨
    (∃ t io c' w', e = .tick t io ∧ (v.lifeStep stops (some c) e).1 = some c' ∧ OutFlow c' w' file ∧ c'.opts = c.opts ∧
      c'.lastUpdated = c.lastUpdated ∧
      c'.mult = (if t - c.lastSent > c.opts.retry * c.mult then min 255 (c.mult + 2) else c.mult) ∧
      w' = (w.next file c.opts.payload c.opts.window (decide (t - c.lastSent > c.opts.retry * c.mult))).1 ∧
      (((v.lifeStep stops (some c) e).2 = [] ∧ c'.lastSent = c.lastSent) ∨
       ((v.lifeStep stops (some c) e).2.length = 1 ∧ c'.lastSent = t ∧
        (w.next file c.opts.payload c.opts.window (decide (t - c.lastSent > c.opts.retry * c.mult))).2.isSome = true))) := by
  cases e with
  | start => exact he.elim
  | recv => exact he.elim
  | drop => exact .inl ⟨by simp [Srv.lifeStep], fun es hes => silent_none v stops es hes⟩
  | check t io =>
    rcases check_cases v c t io with ⟨h1, h2⟩ | ⟨h1, h2⟩
    · refine .inl ⟨by simp only [Srv.lifeStep]; exact h2, fun es hes => ?_⟩
      simp only [Srv.lifeStep, h1, if_true]
      exact silent_none v stops es hes
    · refine .inr (.inl ⟨by simp [Srv.lifeStep, h1, h2], ?_⟩)
      intro t' io' heq
      cases heq
      unfold Srv.timeout at h1
      split at h1
      · cases h1
      · split at h1
        · assumption
        · cases h1
  | tick t io =>
    obtain ⟨s, m, h1, h2, h3⟩ := h.side
    by_cases ha : c.active = true
    · have hstep : v.lifeStep stops (some c) (.tick t io) = (some (v.sendBlock c t io).1, (v.sendBlock c t io).2.1.toList) := by
        simp [Srv.lifeStep, ha]
      rcases turn_cases v h.bs h1 h2 h3 t io with ⟨s', h4, h5⟩ | ⟨s', h4, h5, h6, h7, h8, h9⟩
      · left
        rw [hstep]
        refine ⟨sendBlock_len v c t io, fun es hes => silent_over v stops es hes _ ?_⟩
        simp only [Conn.failed, Conn.finished, h4]
        simpa using h5
      · right; right
        have hl := (sendBlock_updated v c t io).1
        refine ⟨t, io, (v.sendBlock c t io).1, _, rfl, by rw [hstep], ⟨⟨s', m, h4, h5, by rw [h7]; exact h6⟩, by rw [h7]; exact h.bs, ?_⟩,
          h7, hl, h8, rfl, ?_⟩
        · rw [h8]; have := h.mult; split <;> omega
        · rw [hstep]
          rcases h9 with ⟨ha, hb⟩ | ⟨⟨d, ha⟩, hb, hc⟩
          · exact .inl ⟨by simp [ha], hb⟩
          · exact .inr ⟨by simp [ha], hb, hc⟩
    · refine .inr (.inl ⟨by simp [Srv.lifeStep, ha], fun t' io' heq => (by cases heq)⟩)

theorem span_aux {S} (v : Srv S) (stops : Bool) (t1 : Nat) (file : Bytes) (es : List LifeEv) (hq : ∀ e ∈ es, Spec.Silent e) (c : Conn)
    (w : Spec.Window) (h : OutFlow c w file) (htime : ∀ e ∈ es, ∀ t, e.time = some t → t1 ≤ t ∧ t ≤ t1 + c.opts.retry) (N : Nat)
    (hN : N = 0 ∨ (N ≤ w.cur - w.base ∧ t1 ≤ c.lastSent)) :
    N + (v.lifeRun stops (some c) es).2.length ≤ c.opts.window + 1 := by
  induction es generalizing c w N with
  | nil =>
    obtain ⟨i1, i2, i3, i4⟩ := h.inv
    simp only [Srv.lifeRun, List.length_nil]
    omega
  | cons e es ih =>
    have hq' := fun y hy => hq y (List.mem_cons_of_mem e hy)
    obtain ⟨i1, i2, i3, i4⟩ := h.inv
    simp only [Srv.lifeRun, List.length_append]
    rcases silent_step v stops h e (hq e List.mem_cons_self) with ⟨h1, h2⟩ | ⟨h1, -⟩ | ⟨t, io, c', w', rfl, h2, h3, h4, -, h5, h6, h7⟩
    · rw [h2 es hq']
      simp only [List.length_nil]
      omega
    · rw [h1]
      simp only [List.length_nil, Nat.zero_add]
      exact ih hq' c w h (fun y hy => htime y (List.mem_cons_of_mem e hy)) N hN
    · rw [h2]
      have ht := htime _ List.mem_cons_self t rfl
      have htime' : ∀ e ∈ es, ∀ t, e.time = some t → t1 ≤ t ∧ t ≤ t1 + c'.opts.retry := by
        rw [h4]; exact fun y hy => htime y (List.mem_cons_of_mem _ hy)
      have hm := next_moves h.inv (decide (t - c.lastSent > c.opts.retry * c.mult))
      rw [← h6] at hm
      rw [← h4]
      rw [← Nat.add_assoc]
      have hnf : t1 ≤ c.lastSent → ¬ t - c.lastSent > c.opts.retry * c.mult := by
        intro hx
        have := Nat.le_mul_of_pos_right c.opts.retry h.mult
        omega
      rcases h7 with ⟨h7, h8⟩ | ⟨h7, h8, h9⟩
      · rw [h7, List.length_nil, Nat.add_zero]
        refine ih hq' c' w' h3 htime' N ?_
        rcases hN with hN | ⟨hN, hl⟩
        · exact .inl hN
        · right
          have := hm.2.2 (by simp only [decide_eq_false_iff_not]; exact hnf hl)
          rw [hm.1, h8]
          omega
      · rw [h7]
        refine ih hq' c' w' h3 htime' (N + 1) (.inr ?_)
        rw [hm.1, h8]
        have hx := hm.2.1 h9
        refine ⟨?_, ht.1⟩
        rcases hN with hN | ⟨hN, hl⟩
        · omega
        · have := hx.2 (by simp only [decide_eq_false_iff_not]; exact hnf hl)
          omega

theorem total_aux {S} (v : Srv S) (stops : Bool) (t0 t1 W R : Nat) (file : Bytes) (es : List LifeEv) (hq : ∀ e ∈ es, Spec.Silent e)
    (hmono : es.Pairwise fun a b => ∀ s t, a.time = some s → b.time = some t → s ≤ t)
    (c : Conn) (hW : c.opts.window = W) (hR : c.opts.retry = R)
    (w : Spec.Window) (h : OutFlow c w file) (now : Nat) (hnow : now ≤ t1)
    (htime : ∀ e ∈ es, ∀ t, e.time = some t → now ≤ t ∧ t ≤ t1) (N G : Nat) (dirty : Bool)
    (hb : w.base = 0) (hm : min 255 (2 * G + 1) ≤ c.mult) (hg : t0 + R * Spec.backoff G ≤ now)
    (hd : dirty = true → t0 + R * Spec.backoff G ≤ c.lastSent) (hN : N ≤ W * G + (if dirty then w.cur else 0)) :
    ∃ G, N + (v.lifeRun stops (some c) es).2.length ≤ W * (G + 1) + 1 ∧ t0 + R * Spec.backoff G ≤ t1 := by
  induction es generalizing c w N G dirty now with
  | nil =>
    obtain ⟨i1, i2, i3, i4⟩ := h.inv
    refine ⟨G, ?_, by omega⟩
    simp only [Srv.lifeRun, List.length_nil, Nat.mul_succ]
    split at hN <;> omega
  | cons e es ih =>
    have hq' := fun y hy => hq y (List.mem_cons_of_mem e hy)
    have hmono' := (List.pairwise_cons.mp hmono).2
    obtain ⟨i1, i2, i3, i4⟩ := h.inv
    simp only [Srv.lifeRun, List.length_append]
    rcases silent_step v stops h e (hq e List.mem_cons_self) with ⟨h1, h2⟩ | ⟨h1, -⟩ | ⟨t, io, c', w', rfl, h2, h3, h4, -, h5, h6, h7⟩
    · rw [h2 es hq']
      refine ⟨G, ?_, by omega⟩
      simp only [List.length_nil, Nat.mul_succ]
      split at hN <;> omega
    · rw [h1]
      simp only [List.length_nil, Nat.zero_add]
      exact ih hq' hmono' c hW hR w h now hnow (fun y hy => htime y (List.mem_cons_of_mem e hy)) N G dirty hb hm hg hd hN
    · rw [h2]
      have ht := htime _ List.mem_cons_self t rfl
      have htime' : ∀ e ∈ es, ∀ s, e.time = some s → t ≤ s ∧ s ≤ t1 := fun y hy s hs =>
        ⟨(List.pairwise_cons.mp hmono).1 y hy t s rfl hs, (htime y (List.mem_cons_of_mem _ hy) s hs).2⟩
      have hmv := next_moves h.inv (decide (t - c.lastSent > c.opts.retry * c.mult))
      rw [← h6] at hmv
      rw [← Nat.add_assoc]
      have hb' : w'.base = 0 := by rw [hmv.1, hb]
      have hW' : c'.opts.window = W := by rw [h4, hW]
      have hR' : c'.opts.retry = R := by rw [h4, hR]
      by_cases hf : t - c.lastSent > c.opts.retry * c.mult
      · rw [if_pos hf] at h5
        cases dirty with
        | false =>
          simp only [Bool.false_eq_true, if_false, Nat.add_zero] at hN
          rcases h7 with ⟨h7, h8⟩ | ⟨h7, h8, h9⟩
          · rw [h7, List.length_nil, Nat.add_zero]
            exact ih hq' hmono' c' hW' hR' w' h3 t ht.2 htime' N G false hb' (by omega) (by omega) (fun hx => by cases hx) (by simpa using hN)
          · rw [h7]
            have := (hmv.2.1 h9).1
            exact ih hq' hmono' c' hW' hR' w' h3 t ht.2 htime' (N + 1) G true hb' (by omega) (by omega) (fun _ => by omega)
              (by simp only [if_true]; omega)
        | true =>
          simp only [if_true] at hN
          have hd := hd rfl
          have hg' : t0 + R * Spec.backoff (G + 1) ≤ t := by
            simp only [Spec.backoff, Nat.mul_add]
            have : R * min 255 (2 * G + 1) ≤ R * c.mult := Nat.mul_le_mul_left _ hm
            rw [hR] at hf
            omega
          have hN' : N ≤ W * (G + 1) := by rw [Nat.mul_succ]; omega
          rcases h7 with ⟨h7, h8⟩ | ⟨h7, h8, h9⟩
          · rw [h7, List.length_nil, Nat.add_zero]
            exact ih hq' hmono' c' hW' hR' w' h3 t ht.2 htime' N (G + 1) false hb' (by omega) hg' (fun hx => by cases hx) (by simpa using hN')
          · rw [h7]
            have := (hmv.2.1 h9).1
            exact ih hq' hmono' c' hW' hR' w' h3 t ht.2 htime' (N + 1) (G + 1) true hb' (by omega) hg' (fun _ => by omega)
              (by simp only [if_true]; omega)
      · rw [if_neg hf] at h5
        have hdec : decide (t - c.lastSent > c.opts.retry * c.mult) = false := by simpa using hf
        rcases h7 with ⟨h7, h8⟩ | ⟨h7, h8, h9⟩
        · rw [h7, List.length_nil, Nat.add_zero]
          have := hmv.2.2 hdec
          exact ih hq' hmono' c' hW' hR' w' h3 t ht.2 htime' N G dirty hb' (by omega) (by omega) (by rw [h8]; exact hd)
            (by cases dirty <;> simp only [Bool.false_eq_true, if_false, if_true] at hN ⊢ <;> omega)
        · rw [h7]
          have := (hmv.2.1 h9).2 hdec
          exact ih hq' hmono' c' hW' hR' w' h3 t ht.2 htime' (N + 1) G true hb' (by omega) (by omega) (fun _ => by omega)
            (by simp only [if_true]; split at hN <;> omega)

/-- A connection which receives a file sends nothing to a silent client but one message when it is given up. -/
theorem silent_writer {S} (v : Srv S) (stops : Bool) (es : List LifeEv) (hq : ∀ e ∈ es, Spec.Silent e) (c : Conn) (s : RecvSt)
    (h : c.side = .writer s) : (v.lifeRun stops (some c) es).2.length ≤ 1 := by
  induction es with
  | nil => simp [Srv.lifeRun]
  | cons e es ih =>
    have hq' := fun y hy => hq y (List.mem_cons_of_mem e hy)
    have he := hq e List.mem_cons_self
    cases e with
    | start => exact he.elim
    | recv => exact he.elim
    | drop => simp [Srv.lifeRun, Srv.lifeStep, silent_none v stops es hq']
    | tick t io =>
      have ha : c.active = false := by unfold Conn.active; rw [h]
      simp only [Srv.lifeRun, Srv.lifeStep, ha, Bool.false_eq_true, if_false, List.nil_append]
      exact ih hq'
    | check t io =>
      simp only [Srv.lifeRun, Srv.lifeStep]
      rcases check_cases v c t io with ⟨h1, h2⟩ | ⟨h1, h2⟩
      · rw [if_pos h1, silent_none v stops es hq']
        simp only [List.append_nil]
        exact h2
      · rw [h1, h2]
        simpa using ih hq'

theorem connInv_life {S} (v : Srv S) (hb : 512 ≤ v.cfg.maxBlock) (hw : 1 ≤ v.cfg.maxWindow) (stops : Bool) (es : List LifeEv) :
    ∀ c, (v.lifeRun stops none es).1 = some c → ConnInv c := by
  have step : ∀ x e, (∀ c, x = some c → ConnInv c) → ∀ c, (v.lifeStep stops x e).1 = some c → ConnInv c := by
    intro x e hx c hc
    cases x with
    | none =>
      cases e with
      | start t dg io =>
        simp only [Srv.lifeStep] at hc
        split at hc
        · rename_i c' out hr
          cases hc
          exact connInv_new v hb hw t dg io _ _ hr
        · cases hc
      | tick => cases hc
      | recv => cases hc
      | check => cases hc
      | drop => cases hc
    | some c0 =>
      have h0 := hx c0 rfl
      cases e with
      | start t dg io => cases hc; exact h0
      | tick t io =>
        simp only [Srv.lifeStep] at hc
        split at hc
        · cases hc; exact connInv_turn v _ _ _ h0
        · cases hc; exact h0
      | recv t dg io =>
        simp only [Srv.lifeStep] at hc
        split at hc
        · cases hc; exact h0
        · cases hc; exact connInv_handle v _ _ _ _ h0
      | check t io =>
        simp only [Srv.lifeStep] at hc
        split at hc
        · cases hc
        · cases hc; exact h0
      | drop => cases hc
  have key : ∀ x, (∀ c, x = some c → ConnInv c) → ∀ c, (v.lifeRun stops x es).1 = some c → ConnInv c := by
    induction es with
    | nil => intro x hx c hc; exact hx c hc
    | cons e es ih =>
      intro x hx c hc
      exact ih _ (step x e hx) c hc
  exact key none (fun c hc => by cases hc)

theorem connInv_sending {c : Conn} (h : ConnInv c) :
    (∃ s, c.side = .writer s) ∨ (c.failed = true ∨ c.finished = true) ∨ ∃ w file, OutFlow c w file := by
  obtain ⟨h0, h1, -, h3⟩ := h
  cases hs : c.side with
  | writer s => exact .inl ⟨s, rfl⟩
  | reader s =>
    right
    by_cases hf : s.failed = true
    · exact .inl (.inl (by unfold Conn.failed; rw [hs]; exact hf))
    · have hf : s.failed = false := by simpa using hf
      obtain ⟨file, m, w, h⟩ := h3 s hs hf
      exact .inr ⟨w, file, ⟨s, m, hs, hf, h⟩, h0, h1⟩

/-- **C69**, rate: whatever happened before, within any span of time not longer than its retry interval a connection sends at most
`window` blocks and one error message to a client of which nothing arrives in this span, however often its turn comes. -/
theorem c69_span {S} (v : Srv S) (hb : 512 ≤ v.cfg.maxBlock) (hw : 1 ≤ v.cfg.maxWindow) (stops : Bool) (past es : List LifeEv) (c : Conn)
    (hc : (v.lifeRun stops none past).1 = some c) (hq : ∀ e ∈ es, Spec.Silent e) (t1 : Nat)
    (htime : ∀ e ∈ es, ∀ t, e.time = some t → t1 ≤ t ∧ t ≤ t1 + c.opts.retry) :
    (v.lifeRun stops (some c) es).2.length ≤ c.opts.window + 1 := by
  rcases connInv_sending (connInv_life v hb hw stops past c hc) with ⟨s, hs⟩ | h | ⟨w, file, h⟩
  · have := silent_writer v stops es hq c s hs
    omega
  · rw [silent_over v stops es hq c h]
    simp
  · have := span_aux v stops t1 file es hq c w h htime 0 (.inl rfl)
    omega

/-- **C69**, total: a client which sends a request and then nothing, for instance because the request bears a forged address, gets in
the time until `t1` at most one answer to the request, `G + 1` times the window and one error message, where the `G` pauses between the repetitions
take `retry · (1 + 3 + 5 + ...)`: the number of repetitions grows only with the square root of the time. -/
theorem c69_total {S} (v : Srv S) (hb : 512 ≤ v.cfg.maxBlock) (hw : 1 ≤ v.cfg.maxWindow) (stops : Bool) (t0 : Nat) (dg : Bytes) (io : NewIo)
    (c : Conn) (out : List Bytes) (hnew : (v.newConn t0 dg io).result = .ok (c, out)) (es : List LifeEv) (hq : ∀ e ∈ es, Spec.Silent e)
    (t1 : Nat) (hle : t0 ≤ t1) (htime : ∀ e ∈ es, ∀ t, e.time = some t → t0 ≤ t ∧ t ≤ t1)
    (hmono : es.Pairwise fun a b => ∀ s t, a.time = some s → b.time = some t → s ≤ t) :
    out.length ≤ 1 ∧
    ∃ G, (v.lifeRun stops (some c) es).2.length ≤ c.opts.window * (G + 1) + 1 ∧ c.opts.retry * Spec.backoff G ≤ t1 - t0 := by
  have hinv := connInv_new v hb hw t0 dg io c out hnew
  obtain ⟨write, r, used, keys, name, kind, -, -, -, -, g5, -, g7, g8, -, g9⟩ := newConn_ok hnew
  constructor
  · split at g9
    · split at g9
      · obtain ⟨d, -, rfl⟩ := g9; simp
      · rw [g9]; simp
    · obtain ⟨d, -, rfl⟩ := g9; simp
  split at g5
  · have := silent_writer v stops es hq c _ g5.2.2
    exact ⟨0, by omega, by simp [Spec.backoff]⟩
  · obtain ⟨size, file, -, -, g⟩ := g5
    have hk : v.kind c.opts.window = .single → c.opts.window = 1 := by
      unfold Srv.kind
      split
      · intro h; cases h
      · split
        · intro _; assumption
        · intro h; cases h
    have hs : OutFlow c Spec.Window.init file := ⟨⟨_, _, g, rfl, ReaderSim.init _ file c.opts.payload c.opts.window hk⟩, hinv.1, hinv.2.1⟩
    obtain ⟨G, h1, h2⟩ := total_aux v stops t0 t1 c.opts.window c.opts.retry file es hq hmono c rfl rfl _ hs t0 hle htime 0 0 false rfl
      (by rw [g8]; simp) (by simp [Spec.backoff]) (fun h => by cases h) (by simp)
    exact ⟨G, by omega, by omega⟩

theorem silent_stays {S} (v : Srv S) (stops : Bool) (es : List LifeEv) (hq : ∀ e ∈ es, Spec.Silent e) (c c' : Conn)
    (h : (v.lifeRun stops (some c) es).1 = some c') : c'.lastUpdated = c.lastUpdated := by
  induction es generalizing c with
  | nil => cases h; rfl
  | cons e es ih =>
    have hq' := fun y hy => hq y (List.mem_cons_of_mem e hy)
    have he := hq e List.mem_cons_self
    have hnone : (v.lifeRun stops none es).1 = none := by
      clear ih h he hq
      induction es with
      | nil => rfl
      | cons f es ih =>
        have hf := hq' f List.mem_cons_self
        have := ih fun y hy => hq' y (List.mem_cons_of_mem f hy)
        cases f <;> first | exact hf.elim | exact this
    simp only [Srv.lifeRun] at h
    cases e with
    | start => exact he.elim
    | recv => exact he.elim
    | drop => simp only [Srv.lifeStep, hnone] at h; cases h
    | tick t io =>
      simp only [Srv.lifeStep] at h
      split at h
      · rw [ih hq' _ h, (sendBlock_updated v c t io).1]
      · exact ih hq' _ h
    | check t io =>
      simp only [Srv.lifeStep] at h
      split at h
      · rw [hnone] at h; cases h
      · exact ih hq' _ h

/-- **C69**, end: the first time-out check later than the request timeout ends it for good: the bound of `c69_total` at the time of that
check holds for ever. -/
theorem c69_ends {S} (v : Srv S) (hb : 512 ≤ v.cfg.maxBlock) (hw : 1 ≤ v.cfg.maxWindow) (stops : Bool) (t0 : Nat) (dg : Bytes) (io : NewIo)
    (c : Conn) (out : List Bytes) (hnew : (v.newConn t0 dg io).result = .ok (c, out)) (es es' : List LifeEv)
    (hq : ∀ e ∈ es, Spec.Silent e) (hq' : ∀ e ∈ es', Spec.Silent e)
    (t1 : Nat) (cio : RecvIo) (hlate : v.cfg.requestTimeout < t1 - t0) (htime : ∀ e ∈ es, ∀ t, e.time = some t → t0 ≤ t ∧ t ≤ t1)
    (hmono : es.Pairwise fun a b => ∀ s t, a.time = some s → b.time = some t → s ≤ t) :
    ∃ G, (v.lifeRun stops (some c) (es ++ .check t1 cio :: es')).2.length ≤ c.opts.window * (G + 1) + 1 ∧
      c.opts.retry * Spec.backoff G ≤ t1 - t0 := by
  obtain ⟨-, G, h1, h2⟩ := c69_total v hb hw stops t0 dg io c out hnew (es ++ [.check t1 cio])
    (fun e he => by
      rcases List.mem_append.mp he with h | h
      · exact hq e h
      · simp only [List.mem_singleton] at h; subst h; trivial) t1 (by omega)
    (fun e he t ht => by
      rcases List.mem_append.mp he with h | h
      · exact htime e h t ht
      · simp only [List.mem_singleton] at h; subst h; cases ht; omega)
    (by
      rw [List.pairwise_append]
      refine ⟨hmono, List.pairwise_singleton _ _, fun a ha b hb s t hs ht => ?_⟩
      simp only [List.mem_singleton] at hb
      subst hb
      cases ht
      exact (htime a ha s hs).2)
  refine ⟨G, ?_, h2⟩
  have hgone : (v.lifeRun stops (some c) (es ++ [.check t1 cio])).1 = none := by
    rw [lifeRun_append]
    simp only
    cases hx : (v.lifeRun stops (some c) es).1 with
    | none => rfl
    | some c' =>
      have hu := silent_stays v stops es hq c c' hx
      obtain ⟨_, _, _, _, _, _, -, -, -, -, -, g6, -⟩ := newConn_ok hnew
      simp only [Srv.lifeRun, Srv.lifeStep]
      have : (v.timeout c' t1 cio).1 = true := by
        unfold Srv.timeout
        split
        · rfl
        · rw [if_neg (by omega)]
      rw [if_pos this]
  rw [show es ++ .check t1 cio :: es' = (es ++ [.check t1 cio]) ++ es' by simp, lifeRun_append, hgone, silent_none v stops es' hq']
  simpa using h1

/-- The pauses: `n` repetitions take at least `n²` retry intervals, up to 128 repetitions. -/
theorem backoff_sq (n : Nat) (h : n ≤ 128) : Spec.backoff n = n * n := by
  induction n with
  | zero => rfl
  | succ n ih =>
    simp only [Spec.backoff]
    rw [ih (by omega), Nat.min_eq_right (by omega), Nat.succ_mul_succ]
    omega

/-- The event is a datagram of the address `a`. -/
def Spec.Heard (a : Addr) : SrvEv → Prop
  | .client _ b _ _ => b = a
  | .main _ b _ _ => b = a
  | _ => False

/-- **C69**, rate, for the single threaded server with all its clients: after any history, in a span of time not longer than the retry
interval of the connection of `a` in which nothing arrives from `a`, whatever the other clients do, at most `window` blocks and one
error message are sent to `a`; and nothing at all if `a` has no connection. -/
theorem c69_server {S} (v : Srv S) (hb : 512 ≤ v.cfg.maxBlock) (hw : 1 ≤ v.cfg.maxWindow) (evs evs' : List SrvEv) (a : Addr)
    (hq : ∀ e ∈ evs', ¬ Spec.Heard a e) (t1 : Nat) :
    match (v.run ⟨[], 0⟩ evs).conn a with
    | none => sentTo a (v.sent (v.run ⟨[], 0⟩ evs) evs') = []
    | some c => (∀ e ∈ evs', t1 ≤ e.time ∧ e.time ≤ t1 + c.opts.retry) →
      (sentTo a (v.sent (v.run ⟨[], 0⟩ evs) evs')).length ≤ c.opts.window + 1 := by
  have own : ∀ (s : SrvSt), s.addrs.Nodup → ∃ es, (∀ e ∈ es, Spec.Silent e) ∧
      (∀ e ∈ es, ∀ t, e.time = some t → ∃ f ∈ evs', f.time = t) ∧
      (v.lifeRun false (s.conn a) es).2 = sentTo a (v.sent s evs') := by
    induction evs' with
    | nil => exact fun s _ => ⟨[], fun e h => (by cases h), fun e h => (by cases h), rfl⟩
    | cons e r ih =>
      intro s hs
      obtain ⟨l, h1, h2⟩ := c50_single_thread_step v s hs e a
      obtain ⟨ls, h3, h4, h5⟩ := ih (fun y hy => hq y (List.mem_cons_of_mem e hy)) _ (addrs_step v s hs e)
      have he := hq e List.mem_cons_self
      have hl : (∀ f ∈ l, Spec.Silent f) ∧ ∀ f ∈ l, ∀ t, f.time = some t → e.time = t := by
        cases h1 with
        | purge t io => simp [Spec.Silent, LifeEv.time, SrvEv.time]
        | round t io n =>
          refine ⟨fun f hf => ?_, fun f hf => ?_⟩ <;> (rw [List.eq_of_mem_replicate hf]; simp [Spec.Silent, LifeEv.time, SrvEv.time])
        | own t dg io => exact (he rfl).elim
        | other t b dg io h => simp
        | main t dg io => exact (he rfl).elim
        | ignored t b dg io => simp
      refine ⟨l ++ ls, ?_, ?_, ?_⟩
      · intro f hf
        rcases List.mem_append.mp hf with h | h
        · exact hl.1 f h
        · exact h3 f h
      · intro f hf t ht
        rcases List.mem_append.mp hf with h | h
        · exact ⟨e, List.mem_cons_self, hl.2 f h t ht⟩
        · obtain ⟨g, hg, hgt⟩ := h4 f h t ht
          exact ⟨g, List.mem_cons_of_mem e hg, hgt⟩
      · rw [lifeRun_append, h2]
        simp only
        rw [h5]
        simp only [Srv.sent, sentTo_append]
  have hnd := (c22_table_bound v evs).2
  obtain ⟨es, h1, h2, h3⟩ := own _ hnd
  obtain ⟨past, -, h5⟩ := c50_single_thread v evs a
  cases hc : (v.run ⟨[], 0⟩ evs).conn a with
  | none =>
    simp only
    rw [← h3, hc]
    exact silent_none v false es h1
  | some c =>
    simp only
    intro ht
    rw [← h3, hc]
    refine c69_span v hb hw false past es c (by rw [h5]; exact hc) h1 t1 (fun e he t htt => ?_)
    obtain ⟨f, hf, hft⟩ := h2 e he t htt
    have := ht f hf
    omega

end Tftp

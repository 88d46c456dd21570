import Verif.ServerAdmit
import Verif.ReaderProps
/-
C38 (time-outs) and C39 (retransmission timer) of the server, for whole histories.
-/
namespace Tftp

theorem snoc_induction {α : Type _} {P : List α → Prop} (nil : P []) (snoc : ∀ l x, P l → P (l ++ [x])) (l : List α) : P l := by
  rw [← List.reverse_reverse l]
  induction l.reverse with
  | nil => exact nil
  | cons x r ih => rw [List.reverse_cons]; exact snoc _ _ ih

theorem run_snoc {S} (v : Srv S) (s : SrvSt) (evs : List SrvEv) (e : SrvEv) :
    v.run s (evs ++ [e]) = (v.step (v.run s evs) e).1 := by
  unfold Srv.run; rw [List.foldl_append]; rfl

/-- Invariants of single connections hold in every history. -/
theorem run_conn_inv {S} (v : Srv S) (P : Conn → Prop)
    (hnew : ∀ t dg io c out, (v.newConn t dg io).result = .ok (c, out) → P c)
    (hturn : ∀ c t io, P c → P (v.sendBlock c t io).1) (hhandle : ∀ c t dg io, P c → P (v.handle c t dg io).1)
    (evs : List SrvEv) : ∀ a c, (v.run ⟨[], 0⟩ evs).conn a = some c → P c := by
  induction evs using snoc_induction with
  | nil => intro a c h; cases h
  | snoc evs e ih =>
    intro a c h
    have hnd := (c22_table_bound v evs).2
    have hnd' := (c22_table_bound v (evs ++ [e])).2
    have haff := fun c0 (h0 : (v.run ⟨[], 0⟩ evs).conn a = some c0) => c22_isolation v _ hnd e a c0 h0
    rw [run_snoc] at h hnd'
    cases h0 : (v.run ⟨[], 0⟩ evs).conn a with
    | some c0 =>
      have hP := ih a c0 h0
      have := haff c0 h0
      rw [h] at this
      cases e with
      | purge t io =>
        simp only [Spec.Affects] at this
        split at this
        · cases this
        · cases this; exact hP
      | round t io =>
        obtain ⟨c', h1, h2⟩ := this
        cases h1
        clear h haff
        induction h2 with
        | none => exact hP
        | turn c' _ ih => exact hturn _ _ _ ih
      | client t b dg io =>
        simp only [Spec.Affects, Option.some.injEq] at this
        rw [this]
        split
        · exact hhandle _ _ _ _ hP
        · exact hP
      | main t b dg io => simp only [Spec.Affects, Option.some.injEq] at this; rw [this]; exact hP
    | none =>
      rw [conn_none_iff] at h0
      have hm := (conn_iff hnd').mp h
      have ha : a ∈ (v.step (v.run ⟨[], 0⟩ evs) e).1.addrs := List.mem_map.mpr ⟨(a, c), hm, rfl⟩
      cases e with
      | purge t io => exact absurd ((List.filter_sublist.map _).subset ha) h0
      | round t io =>
        rw [show (v.step (v.run ⟨[], 0⟩ evs) (.round t io)).1 = (v.sendRound (v.run ⟨[], 0⟩ evs) t io).1 from rfl,
          sendRound_addrs] at ha
        exact absurd ha h0
      | client t b dg io =>
        exfalso
        apply h0
        simp only [Srv.step, SrvSt.addrs, List.mem_map] at ha ⊢
        obtain ⟨y, ⟨x, hx, rfl⟩, rfl⟩ := ha
        refine ⟨x, hx, ?_⟩
        split
        · assumption
        · rfl
      | main t b dg io =>
        simp only [Srv.step] at hm ha
        split at hm
        · exact absurd (List.mem_map.mpr ⟨(a, c), hm, rfl⟩) h0
        · split at hm
          · exact absurd (List.mem_map.mpr ⟨(a, c), hm, rfl⟩) h0
          · split at hm
            · exact absurd (List.mem_map.mpr ⟨(a, c), hm, rfl⟩) h0
            · rename_i c1 out hr
              rcases List.mem_cons.mp ((insertClient_perm b c1 _).mem_iff.mp hm) with h1 | h1
              · cases h1; exact hnew _ _ _ _ _ hr
              · exact absurd (List.mem_map.mpr ⟨(a, c), h1, rfl⟩) h0

/-! ### C38 -/

/-- Specification: the transfer made progress: the client confirmed more bytes, or another block was stored. -/
def Spec.Progress (c c' : Conn) : Prop :=
  match c.side, c'.side with
  | .reader s, .reader s' => s.total < s'.total
  | .writer s, .writer s' => s.w.written < s'.w.written
  | _, _ => False

/-- The time of an event. -/
def SrvEv.time : SrvEv → Nat
  | .purge t _ | .round t _ | .client t _ _ _ | .main t _ _ _ => t

theorem progress_irrefl (c : Conn) : ¬ Spec.Progress c c := by
  unfold Spec.Progress
  cases h : c.side <;> simp

theorem sendBlock_updated {S} (v : Srv S) (c : Conn) (t : Nat) (io : SendIo) :
    (v.sendBlock c t io).1.lastUpdated = c.lastUpdated ∧
    (match c.side, (v.sendBlock c t io).1.side with
      | .reader s, .reader s' => s'.total = s.total
      | .writer s, .writer s' => s' = s
      | _, _ => False) := by
  unfold Srv.sendBlock
  cases hs : c.side with
  | writer s => simp [hs]
  | reader s =>
    simp only
    refine ⟨by split <;> rfl, ?_⟩
    unfold serverSendTick
    simp only
    split <;> rfl

theorem turns_updated {S} {v : Srv S} {t : Nat} {io : SendIo} {c c' : Conn} (h : Spec.Turns v t io c c') :
    c'.lastUpdated = c.lastUpdated ∧ ¬ Spec.Progress c c' := by
  have key : c'.lastUpdated = c.lastUpdated ∧ (match c.side, c'.side with
      | .reader s, .reader s' => s'.total = s.total
      | .writer s, .writer s' => s' = s
      | _, _ => False) := by
    induction h with
    | none => refine ⟨rfl, ?_⟩; cases c.side <;> simp
    | turn c' _ ih =>
      obtain ⟨h1, h2⟩ := sendBlock_updated v c' t io
      refine ⟨h1.trans ih.1, ?_⟩
      have ih := ih.2
      revert h2 ih
      cases c.side <;> cases c'.side <;> cases (v.sendBlock c' t io).1.side <;> simp <;> intro h1 h2
      · rw [h1, h2]
      · rw [h1, h2]
  refine ⟨key.1, ?_⟩
  have := key.2
  unfold Spec.Progress
  revert this
  cases c.side <;> cases c'.side <;> simp
  · intro h; omega
  · rintro rfl; omega

theorem handle_updated {S} (v : Srv S) (c : Conn) (t : Nat) (dg : Bytes) (io : RecvIo) :
    (Spec.Progress c (v.handle c t dg io).1 → (v.handle c t dg io).1.lastUpdated = t) ∧
    (¬ Spec.Progress c (v.handle c t dg io).1 → (v.handle c t dg io).1.lastUpdated = c.lastUpdated) := by
  unfold Srv.handle Spec.Progress
  cases hs : c.side with
  | reader s =>
    simp only
    by_cases h : (serverSendRecv (v.transfer c) s dg).total > s.total
    · rw [if_pos h]
      exact ⟨fun _ => rfl, fun h' => absurd h h'⟩
    · rw [if_neg h]
      exact ⟨fun h' => absurd h' h, fun _ => rfl⟩
  | writer s =>
    simp only
    constructor
    · intro h; rw [if_pos h]
    · intro h; rw [if_neg h]

/-- **C38**, the clock of a connection: an event resets it exactly if the transfer makes progress. -/
theorem c38_clock {S} (v : Srv S) (s : SrvSt) (hs : s.addrs.Nodup) (e : SrvEv) (a : Addr) (c c' : Conn)
    (h : s.conn a = some c) (h' : (v.step s e).1.conn a = some c') :
    (Spec.Progress c c' → c'.lastUpdated = e.time) ∧ (¬ Spec.Progress c c' → c'.lastUpdated = c.lastUpdated) := by
  have := c22_isolation v s hs e a c h
  rw [h'] at this
  cases e with
  | purge t io =>
    simp only [Spec.Affects] at this
    split at this
    · cases this
    · cases this; exact ⟨fun h => absurd h (progress_irrefl _), fun _ => rfl⟩
  | round t io =>
    obtain ⟨c1, h1, h2⟩ := this
    cases h1
    obtain ⟨h3, h4⟩ := turns_updated h2
    exact ⟨fun h => absurd h h4, fun _ => h3⟩
  | client t b dg io =>
    simp only [Spec.Affects, Option.some.injEq] at this
    rw [this]
    split
    · exact handle_updated v c t dg io
    · exact ⟨fun h => absurd h (progress_irrefl _), fun _ => rfl⟩
  | main t b dg io =>
    simp only [Spec.Affects, Option.some.injEq] at this
    rw [this]
    exact ⟨fun h => absurd h (progress_irrefl _), fun _ => rfl⟩

/-- A connection is created with the current time. -/
theorem created_at {S} (v : Srv S) (s : SrvSt) (e : SrvEv) (a : Addr) (c : Conn) (hnd : (v.step s e).1.addrs.Nodup)
    (h : s.conn a = none) (h' : (v.step s e).1.conn a = some c) : c.lastUpdated = e.time := by
  rw [conn_none_iff] at h
  have hm := (conn_iff hnd).mp h'
  have ha : a ∈ (v.step s e).1.addrs := List.mem_map.mpr ⟨(a, c), hm, rfl⟩
  cases e with
  | purge t io => exact absurd ((List.filter_sublist.map _).subset ha) h
  | round t io =>
    rw [show (v.step s (.round t io)).1 = (v.sendRound s t io).1 from rfl, sendRound_addrs] at ha
    exact absurd ha h
  | client t b dg io =>
    exfalso
    apply h
    simp only [Srv.step, SrvSt.addrs, List.mem_map] at ha ⊢
    obtain ⟨y, ⟨x, hx, rfl⟩, rfl⟩ := ha
    refine ⟨x, hx, ?_⟩
    split
    · assumption
    · rfl
  | main t b dg io =>
    simp only [Srv.step] at hm ha
    split at hm
    · exact absurd (List.mem_map.mpr ⟨(a, c), hm, rfl⟩) h
    · split at hm
      · exact absurd (List.mem_map.mpr ⟨(a, c), hm, rfl⟩) h
      · split at hm
        · exact absurd (List.mem_map.mpr ⟨(a, c), hm, rfl⟩) h
        · rename_i c1 out hr
          rcases List.mem_cons.mp ((insertClient_perm b c1 _).mem_iff.mp hm) with h1 | h1
          · cases h1
            obtain ⟨_, _, _, _, _, _, _, _, _, _, _, h1, _⟩ := newConn_ok hr
            exact h1
          · exact absurd (List.mem_map.mpr ⟨(a, c), h1, rfl⟩) h

/-- Specification: in the history `evs`, `t` is the time when the transfer of address `a` was created or last made
progress, whichever is later. -/
def Spec.LastProgress {S} (v : Srv S) (a : Addr) (evs : List SrvEv) (t : Nat) : Prop :=
  ∃ pre e post, evs = pre ++ e :: post ∧ e.time = t ∧
    ((v.run ⟨[], 0⟩ pre).conn a = none ∧ (v.run ⟨[], 0⟩ (pre ++ [e])).conn a ≠ none ∨
      ∃ c1 c2, (v.run ⟨[], 0⟩ pre).conn a = some c1 ∧ (v.run ⟨[], 0⟩ (pre ++ [e])).conn a = some c2 ∧ Spec.Progress c1 c2) ∧
    ∀ p e' q, post = p ++ e' :: q → ∃ c1 c2, (v.run ⟨[], 0⟩ (pre ++ e :: p)).conn a = some c1 ∧
      (v.run ⟨[], 0⟩ (pre ++ e :: p ++ [e'])).conn a = some c2 ∧ ¬ Spec.Progress c1 c2

theorem c38_last_progress {S} (v : Srv S) (evs : List SrvEv) :
    ∀ a c, (v.run ⟨[], 0⟩ evs).conn a = some c → Spec.LastProgress v a evs c.lastUpdated := by
  induction evs using snoc_induction with
  | nil => intro a c h; cases h
  | snoc evs e ih =>
    intro a c h
    have hnd := (c22_table_bound v evs).2
    have hnd' := (c22_table_bound v (evs ++ [e])).2
    have h' := h
    rw [run_snoc] at h hnd'
    cases h0 : (v.run ⟨[], 0⟩ evs).conn a with
    | none =>
      exact ⟨evs, e, [], rfl, (created_at v _ e a c hnd' h0 h).symm, .inl ⟨h0, by rw [h']; simp⟩, by simp⟩
    | some c0 =>
      obtain ⟨h1, h2⟩ := c38_clock v _ hnd e a c0 c h0 h
      by_cases hp : Spec.Progress c0 c
      · exact ⟨evs, e, [], rfl, (h1 hp).symm, .inr ⟨c0, c, h0, h', hp⟩, by simp⟩
      · obtain ⟨pre, e0, post, g1, g2, g3, g4⟩ := ih a c0 h0
        refine ⟨pre, e0, post ++ [e], by simp [g1], by rw [h2 hp]; exact g2, g3, ?_⟩
        intro p e' q hq
        rcases List.eq_nil_or_concat q with rfl | ⟨q', x, rfl⟩
        · have := List.append_inj' hq rfl
          obtain ⟨rfl, hx⟩ := this
          cases hx
          refine ⟨c0, c, by rw [← g1]; exact h0, ?_, hp⟩
          rw [← g1]; exact h'
        · have hq' : post ++ [e] = (p ++ e' :: q') ++ [x] := by rw [hq]; simp
          have := List.append_inj' hq' rfl
          exact g4 p e' q' this.1

/-- **C38**: in every history, the regular check at time `t` drops the transfer of an address exactly if it is finished, has
failed, or has made no progress (since `t0`, its creation or its last progress) for longer than the request timeout; otherwise the
transfer is unchanged. Nothing else ever drops a transfer. -/
theorem c38_idle_clients {S} (v : Srv S) (evs : List SrvEv) (a : Addr) (c : Conn)
    (h : (v.run ⟨[], 0⟩ evs).conn a = some c) :
    ∃ t0, Spec.LastProgress v a evs t0 ∧
      (∀ t io, if c.finished = true ∨ c.failed = true ∨ v.cfg.requestTimeout < t - t0
        then (v.run ⟨[], 0⟩ (evs ++ [.purge t io])).conn a = none
        else (v.run ⟨[], 0⟩ (evs ++ [.purge t io])).conn a = some c) ∧
      (∀ e, (v.run ⟨[], 0⟩ (evs ++ [e])).conn a = none → ∃ t io, e = .purge t io) := by
  have hnd := (c22_table_bound v evs).2
  refine ⟨c.lastUpdated, c38_last_progress v evs a c h, ?_, ?_⟩
  · intro t io
    rw [run_snoc]
    have := c22_isolation v _ hnd (.purge t io) a c h
    simp only [Spec.Affects] at this
    rw [this]
    unfold Srv.timeout
    cases hfail : c.failed <;> cases hfin : c.finished
    · by_cases hle : t - c.lastUpdated ≤ v.cfg.requestTimeout
      · simp only [Bool.or_self, Bool.false_eq_true, false_or, if_false, if_pos hle, Nat.not_lt.mpr hle]
      · simp only [Bool.or_self, Bool.false_eq_true, false_or, if_false, if_neg hle, Nat.lt_of_not_le hle, if_true]
    all_goals simp
  · intro e he
    rw [run_snoc] at he
    have := c22_isolation v _ hnd e a c h
    rw [he] at this
    cases e with
    | purge t io => exact ⟨t, io, rfl⟩
    | round t io => obtain ⟨c', h1, -⟩ := this; cases h1
    | client t b dg io => cases this
    | main t b dg io => cases this

/-! ### C39 -/

theorem payload_bounds {o : Opts} (h : 512 ≤ o.blockSize) : 0 < o.payload ∧ o.payload ≤ o.blockSize := by
  unfold Opts.payload
  split <;> omega

/-- What is known about every connection: the multiplier is in range, and the reader of a download is a sliding window
sender of some file. -/
def ConnInv (c : Conn) : Prop :=
  512 ≤ c.opts.blockSize ∧ 1 ≤ c.mult ∧ c.mult ≤ 255 ∧
  ∀ s, c.side = .reader s → s.failed = false →
    ∃ file m w, ReaderSim file c.opts.payload c.opts.window m s.reader w

theorem sendTick_sim {c : Cfg} {s : SendSt} {file : Bytes} {W : Nat} {m : Mapper} {w : Spec.Window} (hbs : 0 < c.bs)
    (hcap : c.bs ≤ c.cap) (h : ReaderSim file c.bs W m s.reader w) (retry fail : Bool) (net : SendRes) (nonce : Nat) :
    ((serverSendTick c s retry fail net nonce).1.failed = true ∧ fail = true) ∨
    ((serverSendTick c s retry fail net nonce).1.failed = s.failed ∧
      ReaderSim file c.bs W m (serverSendTick c s retry fail net nonce).1.reader (w.next file c.bs W retry).1 ∧
      (serverSendTick c s retry fail net nonce).2 = (match (w.next file c.bs W retry).2 with
        | none => none
        | some (i, _) => if net = .sent then
            c.emit nonce (some i) (.data (UInt16.ofNat (i % 65536)) (Spec.block file c.bs i)) else none)) := by
  unfold serverSendTick
  rcases ReaderSim.next hbs h retry fail c.cap hcap with ⟨h1, h2, h3⟩ | ⟨h2, h3⟩
  · left
    simp only
    rw [h2]
    exact ⟨rfl, h1⟩
  · right
    simp only
    rw [h2]
    cases hn : (w.next file c.bs W retry).2 with
    | none => exact ⟨rfl, h3, rfl⟩
    | some x => exact ⟨rfl, h3, rfl⟩

theorem connInv_turn {S} (v : Srv S) (c : Conn) (t : Nat) (io : SendIo) (h : ConnInv c) : ConnInv (v.sendBlock c t io).1 := by
  obtain ⟨h0, h1, h2, h3⟩ := h
  unfold Srv.sendBlock
  cases hs : c.side with
  | writer s => exact ⟨h0, h1, h2, h3⟩
  | reader s =>
    simp only
    rw [← hs]
    generalize hc1 : (if c.retryDue t = true then { c with mult := min 255 (c.mult + 2) } else c) = c1
    have e1 : c1.opts = c.opts := by rw [← hc1]; split <;> rfl
    have e2 : 1 ≤ c1.mult ∧ c1.mult ≤ 255 := by
      rw [← hc1]; split
      · simp only; omega
      · exact ⟨h1, h2⟩
    refine ⟨by simp only; rw [e1]; exact h0, by exact e2.1, by exact e2.2, ?_⟩
    intro s' hs' hf
    simp only [Side.reader.injEq] at hs'
    subst hs'
    have hpb := payload_bounds h0
    by_cases hfs : s.failed = true
    · exfalso
      have : (serverSendTick (v.transfer c1) s (c.retryDue t) io.fail io.net io.nonce).1.failed = true := by
        unfold serverSendTick; simp only; split <;> simp [hfs]
      rw [this] at hf; cases hf
    · obtain ⟨file, m, w, hsim⟩ := h3 s hs (by simpa using hfs)
      have hsim' : ReaderSim file (v.transfer c1).bs c.opts.window m s.reader w := by
        simp only [Srv.transfer, e1]; exact hsim
      rcases sendTick_sim (c := v.transfer c1) (by simp only [Srv.transfer, e1]; exact hpb.1)
        (by simp only [Srv.transfer, e1]; exact hpb.2) hsim' (c.retryDue t) io.fail io.net io.nonce with ⟨h4, -⟩ | ⟨-, h5, -⟩
      · rw [h4] at hf; cases hf
      · simp only [Srv.transfer, e1] at h5 ⊢
        exact ⟨file, m, _, h5⟩

theorem connInv_handle {S} (v : Srv S) (c : Conn) (t : Nat) (dg : Bytes) (io : RecvIo) (h : ConnInv c) :
    ConnInv (v.handle c t dg io).1 := by
  obtain ⟨h0, h1, h2, h3⟩ := h
  unfold Srv.handle
  cases hs : c.side with
  | writer s => exact ⟨h0, h1, h2, fun s' hs' => by cases hs'⟩
  | reader s =>
    have key : ∀ s', (serverSendRecv (v.transfer c) s dg) = s' → s'.failed = false →
        ∃ file m w, ReaderSim file c.opts.payload c.opts.window m s'.reader w := by
      intro s' hs' hf
      subst hs'
      unfold serverSendRecv at hf ⊢
      split
      · rename_i hd
        rw [hd] at hf
        exact h3 s hs hf
      · rename_i b hd
        rw [hd] at hf
        simp only at hf ⊢
        split
        · rename_i blk hb
          rw [hb] at hf
          simp only at hf ⊢
          split
          · rename_i hn; rw [hn] at hf; cases hf
          · rename_i n hn
            rw [hn] at hf
            obtain ⟨file, m, w, hsim⟩ := h3 s hs hf
            rcases hsim.free_any (payload_bounds h0).1 blk.toNat with h4 | ⟨w', h4, -⟩
            · rw [hn] at h4; cases h4
            · exact ⟨file, _, w', h4⟩
        · rename_i hb
          rw [hb] at hf
          cases hf
        · rename_i hb1 hb2
          have hf' : s.failed = false := by
            split at hf
            · rename_i hb; exact (hb1 _ hb).elim
            · cases hf
            · exact hf
          exact h3 s hs hf'
    simp only
    split
    · refine ⟨h0, ?_, ?_, fun s' hs' hf => ?_⟩
      · simp only; split <;> omega
      · simp only; split <;> omega
      · cases hs'; exact key _ rfl hf
    · refine ⟨h0, h1, h2, fun s' hs' hf => ?_⟩
      cases hs'; exact key _ rfl hf

theorem connInv_new {S} (v : Srv S) (hb : 512 ≤ v.cfg.maxBlock) (hw : 1 ≤ v.cfg.maxWindow) (t : Nat) (dg : Bytes) (io : NewIo) (c : Conn)
    (out : List Bytes) (h : (v.newConn t dg io).result = .ok (c, out)) : ConnInv c := by
  obtain ⟨write, r, used, keys, name, kind, g1, g2, -, -, g5, -, -, g8, -⟩ := newConn_ok h
  obtain ⟨f1, f2, f3, -⟩ := c16_server_limits v.cfg hb hw io.sessionPub _ r.exts kind used c.opts keys g2
  refine ⟨f1.1, by omega, by omega, ?_⟩
  intro s hs _
  split at g5
  · rw [g5.2.2] at hs; cases hs
  · obtain ⟨size, file, -, -, g⟩ := g5
    rw [g] at hs
    cases hs
    refine ⟨file, _, _, ReaderSim.init _ file c.opts.payload c.opts.window ?_⟩
    unfold Srv.kind
    split
    · intro h; cases h
    · split
      · intro _; assumption
      · intro h; cases h

theorem connInv {S} (v : Srv S) (hb : 512 ≤ v.cfg.maxBlock) (hw : 1 ≤ v.cfg.maxWindow) (evs : List SrvEv) (a : Addr) (c : Conn)
    (h : (v.run ⟨[], 0⟩ evs).conn a = some c) : ConnInv c :=
  run_conn_inv v ConnInv (connInv_new v hb hw) (connInv_turn v) (connInv_handle v) evs a c h

/-- **C39**, the multiplier: always between 1 and 255 (an `u8`, so nothing overflows or wraps to zero); a turn increases it, by at most
2, only if the retransmission timer has fired; a datagram decreases it, by at most one, only on progress. -/
theorem c39_multiplier {S} (v : Srv S) (hb : 512 ≤ v.cfg.maxBlock) (hw : 1 ≤ v.cfg.maxWindow) (evs : List SrvEv) (a : Addr) (c : Conn)
    (h : (v.run ⟨[], 0⟩ evs).conn a = some c) :
    (1 ≤ c.mult ∧ c.mult ≤ 255) ∧
    (∀ t io, (v.sendBlock c t io).1.mult =
      match c.side with
      | .reader _ => if t - c.lastSent > c.opts.retry * c.mult then min 255 (c.mult + 2) else c.mult
      | .writer _ => c.mult) ∧
    (∀ t dg io, ((v.handle c t dg io).1.mult = c.mult) ∨
      (Spec.Progress c (v.handle c t dg io).1 ∧ (v.handle c t dg io).1.mult = max 1 (c.mult - 1))) := by
  have hi := connInv v hb hw evs a c h
  refine ⟨⟨hi.2.1, hi.2.2.1⟩, ?_, ?_⟩
  · intro t io
    unfold Srv.sendBlock Conn.retryDue
    cases hs : c.side with
    | writer s => rfl
    | reader s =>
      simp only [decide_eq_true_eq]
      split <;> rfl
  · intro t dg io
    unfold Srv.handle Spec.Progress
    cases hs : c.side with
    | writer s => exact .inl rfl
    | reader s =>
      simp only
      by_cases hp : (serverSendRecv (v.transfer c) s dg).total > s.total
      · right
        simp only [if_pos hp]
        refine ⟨hp, ?_⟩
        split <;> omega
      · left
        simp only [if_neg hp]

/-- **C39**, retransmission: every unfinished download of every history is a sliding window (`ReaderSim`: blocks up to `w.base`
confirmed, up to `w.top` sent before, `w.cur` sent last or confirmed newest) over some file, such that a turn at time `t`
* sends nothing but the block after `w.cur` if at most the negotiated timeout has passed since the last packet: retransmission never
  starts earlier;
* goes back to the first unconfirmed block if more than 255 times the negotiated timeout has passed (and there is one, and the file can
  be read and the packet sent): retransmission never stops. -/
theorem c39_retransmission {S} (v : Srv S) (hb : 512 ≤ v.cfg.maxBlock) (hw : 1 ≤ v.cfg.maxWindow) (evs : List SrvEv) (a : Addr) (c : Conn)
    (h : (v.run ⟨[], 0⟩ evs).conn a = some c) (s : SendSt) (hs : c.side = .reader s) (hf : s.failed = false) :
    ∃ (file : Bytes) (m : Mapper) (w : Spec.Window), ReaderSim file c.opts.payload c.opts.window m s.reader w ∧
      (∀ t io d, io.fail = false → t - c.lastSent ≤ c.opts.retry → (v.sendBlock c t io).2.1 = some d →
        (v.transfer c).codec.enc io.nonce
          (Packet.data (UInt16.ofNat ((w.cur + 1) % 65536)) (Spec.block file c.opts.payload (w.cur + 1))).toBytes = some d ∧
        ∃ s', (v.sendBlock c t io).1.side = .reader s' ∧
          ReaderSim file c.opts.payload c.opts.window m s'.reader ⟨w.base, w.cur + 1, max w.top (w.cur + 1)⟩) ∧
      (∀ t io, io.fail = false → io.net = .sent → 255 * c.opts.retry < t - c.lastSent → w.base < w.top →
        (v.sendBlock c t io).2.1 = (v.transfer c).codec.enc io.nonce
          (Packet.data (UInt16.ofNat ((w.base + 1) % 65536)) (Spec.block file c.opts.payload (w.base + 1))).toBytes ∧
        ∃ s', (v.sendBlock c t io).1.side = .reader s' ∧
          ReaderSim file c.opts.payload c.opts.window m s'.reader ⟨w.base, w.base + 1, w.top⟩) := by
  obtain ⟨h0, h1, h2, h3⟩ := connInv v hb hw evs a c h
  obtain ⟨file, m, w, hsim⟩ := h3 s hs hf
  have hpb := payload_bounds h0
  have hinv := hsim.inv
  have key : ∀ t io, io.fail = false →
      (v.sendBlock c t io).2.1 = (match (w.next file c.opts.payload c.opts.window (c.retryDue t)).2 with
        | none => none
        | some (i, _) => if io.net = .sent then
            (v.transfer c).codec.enc io.nonce
              (Packet.data (UInt16.ofNat (i % 65536)) (Spec.block file c.opts.payload i)).toBytes else none) ∧
      ∃ s', (v.sendBlock c t io).1.side = .reader s' ∧
          ReaderSim file c.opts.payload c.opts.window m s'.reader (w.next file c.opts.payload c.opts.window (c.retryDue t)).1 := by
    intro t io hfail
    unfold Srv.sendBlock
    rw [hs]
    simp only
    rw [← hs]
    generalize hc1 : (if c.retryDue t = true then { c with mult := min 255 (c.mult + 2) } else c) = c1
    have e1 : v.transfer c1 = v.transfer c := by rw [← hc1]; split <;> rfl
    rw [e1]
    rcases sendTick_sim (c := v.transfer c) hpb.1 hpb.2 hsim (c.retryDue t) io.fail io.net io.nonce with ⟨-, h4⟩ | ⟨-, h5, h6⟩
    · rw [hfail] at h4; cases h4
    · refine ⟨?_, _, rfl, h5⟩
      rw [h6]
      simp only [Srv.transfer]
      split
      · rfl
      · split
        · simp only [Cfg.emit, Option.map_map, Function.comp_def, Option.map_id']
        · rfl
  refine ⟨file, m, w, hsim, ?_, ?_⟩
  · intro t io d hfail ht hd
    obtain ⟨k1, k2⟩ := key t io hfail
    have hdue : c.retryDue t = false := by
      unfold Conn.retryDue
      have : c.opts.retry * 1 ≤ c.opts.retry * c.mult := Nat.mul_le_mul_left _ h1
      simp only [gt_iff_lt, decide_eq_false_iff_not]
      omega
    rw [hdue] at k1 k2
    rw [hd] at k1
    obtain ⟨i1, i2, i3, i4⟩ := hinv
    unfold Spec.Window.next at k1 k2
    simp only [Bool.false_eq_true, false_and, if_false] at k1 k2
    by_cases hlt : w.cur < w.top
    · rw [if_pos hlt] at k1 k2
      refine ⟨?_, ?_⟩
      · simp only at k1
        split at k1
        · exact k1.symm
        · cases k1
      · rw [Nat.max_eq_left (by omega)]; exact k2
    · rw [if_neg hlt] at k1 k2
      have hct : w.cur = w.top := by omega
      by_cases hc : w.top < Spec.nblocks file c.opts.payload ∧ w.top - w.base < c.opts.window
      · rw [if_pos hc] at k1 k2
        refine ⟨?_, ?_⟩
        · simp only at k1
          split at k1
          · rw [hct]; exact k1.symm
          · cases k1
        · rw [hct, Nat.max_eq_right (by omega)]; exact k2
      · rw [if_neg hc] at k1; cases k1
  · intro t io hfail hnet ht hlt
    obtain ⟨k1, k2⟩ := key t io hfail
    have hdue : c.retryDue t = true := by
      unfold Conn.retryDue
      have : c.opts.retry * c.mult ≤ c.opts.retry * 255 := Nat.mul_le_mul_left _ h2
      simp only [gt_iff_lt, decide_eq_true_eq]
      omega
    rw [hdue] at k1 k2
    unfold Spec.Window.next at k1 k2
    simp only [hlt, and_self, if_true] at k1 k2
    rw [if_pos hnet] at k1
    exact ⟨k1, k2⟩

end Tftp

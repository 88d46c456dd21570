import Verif.RfcUp
/-
C82: transfers with the peers of Rfc.lean on a network which loses nothing run from window to window: nobody ever waits for a time to pass.
-/
namespace Tftp.Rfc
open Tftp Spec

variable {S : SigScheme}

/-! ### Specification -/

/-- The peer sends the next `m` blocks, each of which reaches the server, and then hears the newest datagram of the server. Everything
happens at the time `t`. -/
def upRound (t k m : Nat) : List StoreEv := (List.range m).flatMap (fun j => [.send j, .arrive 0 t ⟨.all, true, k⟩]) ++ [.hear 0]

/-- Windows of `W` blocks until all `N` blocks are sent. -/
def upRounds (t k W N : Nat) : Nat → List StoreEv
  | 0 => []
  | r + 1 => upRounds t k W N r ++ upRound t k (min W (N - r * W))

/-- The server has `m` sending turns, the peer hears the newest datagram after each of them; then it acknowledges once, and the server
hears this. -/
def downRound (t k m : Nat) : List FetchEv :=
  (List.replicate m [FetchEv.tick t ⟨false, .sent, k⟩, .hear 0]).flatten ++ [.ack, .arrive 0 t ⟨.all, true, k⟩]

def downRounds (t k W N : Nat) : Nat → List FetchEv
  | 0 => []
  | r + 1 => downRounds t k W N r ++ downRound t k (min W (N - r * W))

/-- How many windows of `W` blocks the file needs. -/
def windows (N W : Nat) : Nat := (N + W - 1) / W

theorem windows_spec {N W : Nat} (hN : 1 ≤ N) (hW : 1 ≤ W) : N ≤ windows N W * W ∧ (windows N W - 1) * W < N := by
  unfold windows
  have h1 := Nat.div_add_mod (N + W - 1) W
  have h2 := Nat.mod_lt (N + W - 1) hW
  generalize (N + W - 1) / W = q at h1 ⊢
  have h3 : W * q = q * W := Nat.mul_comm _ _
  have h4 : (q - 1) * W = q * W - W := by rw [Nat.sub_mul, Nat.one_mul]
  constructor <;> omega

/-! ### Uploads -/

/-- The next block at the server's receiving side. -/
theorem recv_next {c : Cfg} {file : Bytes} {r : RecvSt} {dg : Bytes} (hrole : c.receiver = .serverSingle) (hbs : 0 < c.bs)
    (h : RInv c file r.w.written r)
    (hd : c.codec.dec dg = some (Packet.data (UInt16.ofNat ((r.w.written + 1) % 65536)) (block file c.bs (r.w.written + 1))).toBytes)
    (hN : r.w.written + 1 ≤ nblocks file c.bs) (hfail : r.failed = false) (hfit : file.length ≤ c.max) (nonce : Nat) (d : Dgram)
    (hemit : c.emit nonce (some (r.w.written + 1)) (.ack (UInt16.ofNat ((r.w.written + 1) % 65536))) = some d) (due : Bool)
    (hdue : due = ackDue c r.lastAck (r.w.written + 1) (some (block file c.bs (r.w.written + 1)).length)) (q : RecvSt × Option Dgram)
    (hq : q = serverRecv c r dg .all true nonce) :
    RInv c file (r.w.written + 1) q.1 ∧ q.1.w.written = r.w.written + 1 ∧ q.1.failed = false ∧
    q.1.lastAck = (if due then r.w.written + 1 else r.lastAck) ∧ q.2 = (if due then some d else none) := by
  have hseen := h.seen
  obtain ⟨hi, hm⟩ := r.w.mapper.index_fresh r.w.written (r.w.written + 1) (nblocks file c.bs) h.mapper (by omega) hN (.inl (by omega)) (.inl (by omega))
  have hw := write_cases (t := r.w.written + 1) h hi true
  have hrd := (recv_data hbs h hd (by omega) hN hi hm true true nonce).1
  have hrr : recvRecv c r dg .all true nonce = serverRecv c r dg .all true nonce := by unfold recvRecv; rw [hrole]
  simp only [if_true] at hrd
  rw [hrr, ← hq, show max r.w.written (r.w.written + 1) = r.w.written + 1 by omega] at hrd
  refine ⟨hrd, ?_⟩
  clear hrd hrr
  subst hq
  rw [if_pos rfl] at hw
  simp only [if_true] at hw
  have htot := h.total_le
  have hlen := block_length file c.bs (r.w.written + 1) (by omega)
  simp only [Nat.add_sub_cancel] at hlen
  have hmono := bytesIn_mono file c.bs (i := r.w.written) (j := r.w.written + 1) (by omega)
  have hbl : bytesIn file c.bs (r.w.written + 1) ≤ file.length := by unfold bytesIn; omega
  have hmax : ¬ r.total + (block file c.bs (r.w.written + 1)).length > c.max := by omega
  simp only [serverRecv, hd, decode_data, toNat_ofNat_mod, hw, hmax, decide_false, Bool.false_eq_true, if_false, hemit, ← hdue, Bool.and_true]
  cases due with
  | true => exact ⟨rfl, hfail, rfl, trivial⟩
  | false => exact ⟨rfl, hfail, rfl, trivial⟩

/-- The server has stored `n` blocks and acknowledged `last` of them. -/
structure UpLock (v : Srv S) (c0 : Conn) (file : Bytes) (X : Store) (n last : Nat) : Prop where
  conn : ∃ c s, X.conn = some c ∧ c.opts = c0.opts ∧ c.enc = none ∧ c.side = .writer s ∧ RInv (v.transfer c0) file n s ∧ s.w.written = n ∧
    s.lastAck = last ∧ s.failed = false
  stored : X.stored = file.take (bytesIn file c0.opts.payload n)

/-- One block of a window. -/
theorem lock_block {v : Srv S} {c0 : Conn} (he0 : c0.enc = none) (hbs : 512 ≤ c0.opts.blockSize) {file : Bytes} (hfit : file.length ≤ v.cfg.maxFileSize)
    {age : Option Nat} (stops : Bool) (t k : Nat) {X : Store} {n j : Nat} (hc : X.confirmed = n) (h : UpLock v c0 file X (n + j) n)
    (hj : j < c0.opts.window) (hN : n + j + 1 ≤ nblocks file c0.opts.payload) (last : Bool)
    (hlast : last = decide (j + 1 = c0.opts.window ∨ n + j + 1 = nblocks file c0.opts.payload)) (Y : Store)
    (hY : Y = X.run v stops file c0.opts.payload c0.opts.window age [.send j, .arrive 0 t ⟨.all, true, k⟩]) :
    UpLock v c0 file Y (n + j + 1) (if last then n + j + 1 else n) ∧ Y.confirmed = n ∧
    Y.toPeer = (if last then [⟨ackPacket (n + j + 1), n⟩] else []) ++ X.toPeer ∧ Y.toServer.length = X.toServer.length + 1 := by
  have hpb := payload_bounds hbs
  obtain ⟨⟨c, s, h1, h2, h3, h4, h5, h6, h7, h8⟩, h9⟩ := h
  have hfin : s.finished = false := by
    cases hf : s.finished with
    | false => rfl
    | true =>
      have : s.w.written = nblocks file c0.opts.payload := h5.fin hf
      omega
  have hdeaf : c.deaf = false := by
    obtain ⟨o, e, sd, a, b, m⟩ := c
    simp only at h4
    subst h4
    simp [Conn.deaf, h8, hfin]
  generalize hdg : dataPacket (n + j + 1) (block file c0.opts.payload (n + j + 1)) = dg at *
  have hY2 : Y = ({ X with toServer := ⟨dg, n⟩ :: X.toServer } : Store).server v stops (.recv t dg ⟨.all, true, k⟩) := by
    rw [hY]
    simp only [Store.run, List.foldl_cons, List.foldl_nil, Store.step, hc]
    rw [if_pos ⟨hj, by omega⟩, hdg]
    simp only [List.getElem?_cons_zero, inTime_self, if_true]
  obtain ⟨g1, g2, g3, g4⟩ := handle_writer v h4 t dg ⟨.all, true, k⟩
  have e1 : v.transfer c = v.transfer c0 := transfer_eq v h2 (by rw [he0]; exact h3)
  rw [e1] at g3 g4
  have hl : v.lifeStep stops X.conn (.recv t dg ⟨.all, true, k⟩) =
      (some (v.handle c t dg ⟨.all, true, k⟩).1, (v.handle c t dg ⟨.all, true, k⟩).2.toList) := by
    simp only [h1, Srv.lifeStep, hdeaf, Bool.and_false, Bool.false_eq_true, if_false]
  have hemit : (v.transfer c0).emit k (some (s.w.written + 1)) (.ack (UInt16.ofNat ((s.w.written + 1) % 65536))) =
      some ⟨some (s.w.written + 1), ackPacket (s.w.written + 1)⟩ := by
    unfold Cfg.emit
    rw [plain_enc he0, ack_bytes]
    rfl
  have hd : (v.transfer c0).codec.dec dg = some (Packet.data (UInt16.ofNat ((s.w.written + 1) % 65536)) (block file (v.transfer c0).bs (s.w.written + 1))).toBytes := by
    rw [plain_dec he0, data_bytes, ← hdg, h6]
    rfl
  have hsh := block_short_iff file c0.opts.payload (n + j + 1) hpb.1 (by omega) hN
  have hdue : last = ackDue (v.transfer c0) s.lastAck (s.w.written + 1) (some (block file (v.transfer c0).bs (s.w.written + 1)).length) := by
    have a1 : (v.transfer c0).ackW = c0.opts.window := rfl
    have a2 : (v.transfer c0).bs = c0.opts.payload := rfl
    unfold ackDue
    rw [hlast, h6, h7, a1, a2]
    simp only [Option.getD_some]
    rw [Bool.eq_iff_iff]
    simp only [Bool.or_eq_true, decide_eq_true_eq]
    omega
  obtain ⟨r1, r2, r3, r4, r5⟩ := recv_next (c := v.transfer c0) rfl hpb.1 (by rw [h6]; exact h5) hd
    (show s.w.written + 1 ≤ nblocks file c0.opts.payload by omega) h8 hfit k _ hemit last hdue _ rfl
  rw [h6] at r1 r2 r4 r5
  rw [h7] at r4
  have hst : stored X.stored (some (v.handle c t dg ⟨.all, true, k⟩).1) = file.take (bytesIn file c0.opts.payload (n + j + 1)) := by
    have := r1.out
    rw [r2] at this
    generalize (v.handle c t dg ⟨.all, true, k⟩).1 = c' at g3
    obtain ⟨o, e, sd, a, b, m⟩ := c'
    simp only at g3
    subst g3
    exact this
  rw [hY2]
  refine ⟨⟨⟨_, _, ?_, by rw [g1]; exact h2, by rw [g2]; exact h3, g3, r1, r2, r4, r3⟩, ?_⟩, hc, ?_, ?_⟩
  · simp only [Store.server]; rw [hl]
  · simp only [Store.server]; rw [hl]; exact hst
  · simp only [Store.server]
    rw [hl, g4, r5, hc]
    cases last <;> rfl
  · simp only [Store.server, List.length_cons]

/-- The blocks of a window. -/
theorem lock_blocks {v : Srv S} {c0 : Conn} (he0 : c0.enc = none) (hbs : 512 ≤ c0.opts.blockSize) {file : Bytes} (hfit : file.length ≤ v.cfg.maxFileSize)
    {age : Option Nat} (stops : Bool) (t k : Nat) {X : Store} {n : Nat} (hc : X.confirmed = n) (h : UpLock v c0 file X n n) (m : Nat)
    (hm : m ≤ c0.opts.window) (hN : n + m ≤ nblocks file c0.opts.payload) (last : Bool)
    (hlast : last = decide (1 ≤ m ∧ (m = c0.opts.window ∨ n + m = nblocks file c0.opts.payload))) (Y : Store)
    (hY : Y = X.run v stops file c0.opts.payload c0.opts.window age ((List.range m).flatMap (fun j => [.send j, .arrive 0 t ⟨.all, true, k⟩]))) :
    UpLock v c0 file Y (n + m) (if last then n + m else n) ∧ Y.confirmed = n ∧
    Y.toPeer = (if last then [⟨ackPacket (n + m), n⟩] else []) ++ X.toPeer ∧ Y.toServer.length = X.toServer.length + m := by
  induction m generalizing last Y with
  | zero =>
    have : last = false := by rw [hlast]; simp
    subst this
    rw [hY]
    exact ⟨h, hc, rfl, rfl⟩
  | succ m ih =>
    obtain ⟨g1, g2, g3, g4⟩ := ih (by omega) (by omega) false (by
      symm
      simp only [decide_eq_false_iff_not]
      omega) _ rfl
    rw [List.range_succ, List.flatMap_append, Store.run_append] at hY
    generalize X.run v stops file c0.opts.payload c0.opts.window age
      ((List.range m).flatMap (fun j => [.send j, .arrive 0 t ⟨.all, true, k⟩])) = X1 at g1 g2 g3 g4 hY
    simp only [Bool.false_eq_true, if_false, List.nil_append] at g1 g3
    obtain ⟨r1, r2, r3, r4⟩ := lock_block he0 hbs hfit (age := age) stops t k g2 g1 (by omega) (by omega) last (by
      rw [hlast]
      congr 1
      apply propext
      omega) Y (by rw [hY]; rfl)
    exact ⟨r1, r2, by rw [r3, g3]; rfl, by rw [r4, g4]; omega⟩

theorem heard_next {file : Bytes} {bs W confirmed m : Nat} (hW : W ≤ 65535) (h1 : 1 ≤ m) (h2 : m ≤ W) (h3 : confirmed + m ≤ nblocks file bs) :
    heard file bs W confirmed (ackPacket (confirmed + m)) = confirmed + m := by
  unfold heard
  split
  · rename_i j hj
    have g1 := List.find?_some hj
    have g2 := List.mem_of_find?_eq_some hj
    simp only [List.mem_range] at g2
    simp only [decide_eq_true_eq] at g1
    obtain ⟨g1, g3⟩ := g1
    have hmod := number_inj (List.append_cancel_left g3)
    omega
  · rename_i hj
    rw [List.find?_eq_none] at hj
    have := hj (m - 1) (by simp only [List.mem_range]; omega)
    rw [show confirmed + (m - 1) + 1 = confirmed + m by omega] at this
    simp [h3] at this

/-- A whole window. -/
theorem lock_round {v : Srv S} {c0 : Conn} (he0 : c0.enc = none) (hbs : 512 ≤ c0.opts.blockSize) {file : Bytes} (hfit : file.length ≤ v.cfg.maxFileSize)
    (hwin : c0.opts.window ≤ 65535) {age : Option Nat} (stops : Bool) (t k : Nat) {X : Store} {n : Nat} (hc : X.confirmed = n)
    (h : UpLock v c0 file X n n) (m : Nat) (hm : m ≤ c0.opts.window) (hm1 : 1 ≤ m) (hN : n + m ≤ nblocks file c0.opts.payload)
    (hlast : m = c0.opts.window ∨ n + m = nblocks file c0.opts.payload) (Y : Store)
    (hY : Y = X.run v stops file c0.opts.payload c0.opts.window age (upRound t k m)) :
    UpLock v c0 file Y (n + m) (n + m) ∧ Y.confirmed = n + m ∧ Y.toPeer.length = X.toPeer.length + 1 ∧ Y.toServer.length = X.toServer.length + m := by
  rw [upRound, Store.run_append] at hY
  obtain ⟨g1, g2, g3, g4⟩ := lock_blocks he0 hbs hfit (age := age) stops t k hc h m hm hN true (by symm; simp only [decide_eq_true_eq]; exact ⟨hm1, hlast⟩) _ rfl
  generalize X.run v stops file c0.opts.payload c0.opts.window age
      ((List.range m).flatMap (fun j => [.send j, .arrive 0 t ⟨.all, true, k⟩])) = X1 at g1 g2 g3 g4 hY
  simp only [if_true, List.singleton_append] at g1 g3
  have e : Y = { X1 with confirmed := n + m } := by
    rw [hY]
    simp only [Store.run, List.foldl_cons, List.foldl_nil, Store.step, g3, List.getElem?_cons_zero, g2, inTime_self, if_true]
    rw [heard_next hwin hm1 hm hN]
  rw [e]
  obtain ⟨a1, a2⟩ := g1
  exact ⟨⟨a1, a2⟩, rfl, by simp only [g3, List.length_cons], g4⟩

theorem lock_rounds {v : Srv S} {c0 : Conn} (he0 : c0.enc = none) (hbs : 512 ≤ c0.opts.blockSize) {file : Bytes} (hfit : file.length ≤ v.cfg.maxFileSize)
    (hwin : 1 ≤ c0.opts.window ∧ c0.opts.window ≤ 65535) {age : Option Nat} (stops : Bool) (t k : Nat) {X : Store} (hc : X.confirmed = 0)
    (h : UpLock v c0 file X 0 0) (r : Nat) (hr : r ≤ windows (nblocks file c0.opts.payload) c0.opts.window) (Y : Store)
    (hY : Y = X.run v stops file c0.opts.payload c0.opts.window age (upRounds t k c0.opts.window (nblocks file c0.opts.payload) r)) :
    UpLock v c0 file Y (min (r * c0.opts.window) (nblocks file c0.opts.payload)) (min (r * c0.opts.window) (nblocks file c0.opts.payload)) ∧
    Y.confirmed = min (r * c0.opts.window) (nblocks file c0.opts.payload) ∧ Y.toPeer.length = X.toPeer.length + r ∧
    Y.toServer.length = X.toServer.length + min (r * c0.opts.window) (nblocks file c0.opts.payload) := by
  induction r generalizing Y with
  | zero =>
    rw [hY, Nat.zero_mul, Nat.zero_min]
    exact ⟨h, hc, rfl, rfl⟩
  | succ r ih =>
    obtain ⟨g1, g2, g3, g4⟩ := ih (by omega) _ rfl
    rw [upRounds, Store.run_append] at hY
    generalize X.run v stops file c0.opts.payload c0.opts.window age (upRounds t k c0.opts.window (nblocks file c0.opts.payload) r) = X1 at g1 g2 g3 g4 hY
    have hw := windows_spec (nblocks_pos file c0.opts.payload) hwin.1
    have hlt : r * c0.opts.window < nblocks file c0.opts.payload := by
      have : r * c0.opts.window ≤ (windows (nblocks file c0.opts.payload) c0.opts.window - 1) * c0.opts.window := Nat.mul_le_mul_right _ (by omega)
      omega
    have hs : (r + 1) * c0.opts.window = r * c0.opts.window + c0.opts.window := Nat.succ_mul _ _
    rw [Nat.min_eq_left (Nat.le_of_lt hlt)] at g1 g2 g4
    obtain ⟨q1, q2, q3, q4⟩ := lock_round he0 hbs hfit hwin.2 (age := age) stops t k g2 g1
      (min c0.opts.window (nblocks file c0.opts.payload - r * c0.opts.window)) (Nat.min_le_left _ _) (by omega) (by omega) (by omega) Y hY
    have e : r * c0.opts.window + min c0.opts.window (nblocks file c0.opts.payload - r * c0.opts.window) =
        min ((r + 1) * c0.opts.window) (nblocks file c0.opts.payload) := by omega
    rw [e] at q1 q2
    exact ⟨q1, q2, by omega, by omega⟩

/-- **C82**, uploads: on a network which loses nothing the peer of C81 sends its file window after window. The server acknowledges each
window with one acknowledgement, at once: no time passes, no block is sent twice, there is one acknowledgement per window, and at the
end the server has the file and is finished. The file may have any number of blocks. -/
theorem c82_upload (v : Srv S) (hb : 512 ≤ v.cfg.maxBlock ∧ v.cfg.maxBlock ≤ 65535) (hw : 1 ≤ v.cfg.maxWindow ∧ v.cfg.maxWindow ≤ 65535)
    (t : Nat) (dg : Bytes) (io : NewIo) (c : Conn) (out : List Bytes) (h : (v.newConn t dg io).result = .ok (c, out)) (he : c.enc = none)
    (r : Request) (hreq : v.requestOf dg = some (true, r)) (file : Bytes) (hfit : file.length ≤ v.cfg.maxFileSize) (age : Option Nat)
    (stops : Bool) (nonce : Nat) (N : Nat) (hN : N = file.length / blockSize out + 1) (X : Store)
    (hX : X = (Store.init c out).run v stops file (blockSize out) (windowSize out) age (upRounds t nonce (windowSize out) N (windows N (windowSize out)))) :
    X.confirmed = N ∧ X.stored = file ∧ (∃ c', X.conn = some c' ∧ c'.finished = true ∧ c'.failed = false) ∧
    X.toServer.length = N ∧ X.toPeer.length = out.length + windows N (windowSize out) := by
  obtain ⟨p1, p2, p3, p4, p5, -⟩ := plain_new hb hw h he
  have hpb := payload_bounds p2
  have hw65 : c.opts.window ≤ 65535 := by
    obtain ⟨write, r', used, keys, name, kind, g1, g2, -⟩ := newConn_ok h
    have := (c16_server_limits v.cfg hb.1 hw.1 _ _ _ _ _ _ _ g2).2.1
    omega
  rw [p4, ← p1] at hN hX
  rw [p5] at hX ⊢
  have hN : N = nblocks file c.opts.payload := hN
  subst hN
  have h0 : UpLock v c file (Store.init c out) 0 0 :=
    ⟨⟨c, _, rfl, rfl, he, writer_new h hreq, RInv.init _ _, rfl, rfl, rfl⟩, by simp [Store.init, bytesIn]⟩
  obtain ⟨q1, q2, q3, q4⟩ := lock_rounds he p2 hfit ⟨p3, hw65⟩ (age := age) stops t nonce rfl h0 _ (Nat.le_refl _) X hX
  have hws := (windows_spec (nblocks_pos file c.opts.payload) p3).1
  rw [Nat.min_eq_right hws] at q1 q2 q4
  obtain ⟨⟨c', s, k1, k2, k3, k4, k5, k6, k7, k8⟩, k9⟩ := q1
  refine ⟨q2, ?_, ⟨c', k1, ?_⟩, by rw [q4]; simp [Store.init], by rw [q3]; simp [Store.init]⟩
  · rw [k9, bytesIn_nblocks _ _ _ hpb.1 (Nat.le_refl _)]
    exact List.take_of_length_le (l := file) (Nat.le_refl _)
  · have hd : s.finished = true := by
      have hd : s.w.written = nblocks file c.opts.payload → s.finished = true ∨ s.failed = true := k5.done
      rcases hd k6 with hd | hd
      · exact hd
      · rw [k8] at hd; cases hd
    obtain ⟨o, e, sd, a, b, m⟩ := c'
    simp only at k4
    subst k4
    exact ⟨hd, k8⟩

/-! ### Downloads -/

/-- The server has sent `n + j` blocks, of which `n` are confirmed, and the peer has all of them; nothing is to be repeated at the time `t`. -/
structure DownLock (v : Srv S) (c0 : Conn) (file : Bytes) (t : Nat) (X : Fetch) (n j : Nat) : Prop where
  conn : ∃ c s m, X.conn = some c ∧ c.opts = c0.opts ∧ c.enc = none ∧ c.side = .reader s ∧ SInv (v.transfer c0) file m ⟨n, n + j, n + j⟩ s ∧
    s.failed = false ∧ c.lastSent = t
  blocks : X.peer.blocks = n + j
  out : X.peer.out = file.take (bytesIn file c0.opts.payload (n + j))
  done : X.peer.done = true ↔ n + j = nblocks file c0.opts.payload

/-- One block of a window. -/
theorem lock_tick {v : Srv S} {c0 : Conn} (he0 : c0.enc = none) (hbs : 512 ≤ c0.opts.blockSize) {file : Bytes}
    {age : Option Nat} (stops : Bool) (t k : Nat) {X : Fetch} {n j : Nat} (h : DownLock v c0 file t X n j)
    (hj : j < c0.opts.window) (hN : n + j < nblocks file c0.opts.payload) (Y : Fetch)
    (hY : Y = X.run v stops c0.opts.payload age [.tick t ⟨false, .sent, k⟩, .hear 0]) :
    DownLock v c0 file t Y n (j + 1) ∧ Y.toPeer.length = X.toPeer.length + 1 ∧ Y.toServer = X.toServer := by
  have hpb := payload_bounds hbs
  obtain ⟨⟨c, s, m, h1, h2, h3, h4, h5, h6, h7⟩, h8, h9, h10⟩ := h
  have hfin : s.finished = false := by
    cases hf : s.finished with
    | false => rfl
    | true =>
      have : n = nblocks file c0.opts.payload := h5.fin hf
      omega
  have hact : c.active = true := (active_side h4).mpr ⟨h6, hfin⟩
  have hdue : c.retryDue t = false := by
    unfold Conn.retryDue
    simp only [decide_eq_false_iff_not]
    omega
  have e1 : v.transfer c = v.transfer c0 := transfer_eq v h2 (by rw [he0]; exact h3)
  have hs := sendBlock_eq v h4 t ⟨false, .sent, k⟩ c (by rw [hdue]; simp)
  rw [hdue, e1] at hs
  have hnext : (⟨n, n + j, n + j⟩ : Window).next file c0.opts.payload c0.opts.window false = (⟨n, n + j + 1, n + j + 1⟩, some (n + j + 1, false)) := by
    unfold Window.next
    rw [if_neg (by simp), if_neg (by simp), if_pos (by simp only; omega)]
  rcases tick_cases (c := v.transfer c0) hpb.1 hpb.2 h5 false false .sent k with ⟨hx, -⟩ | ⟨t1, t2, t3, t4⟩
  · cases hx
  have hnext' : (⟨n, n + j, n + j⟩ : Window).next file (v.transfer c0).bs (v.transfer c0).W false = (⟨n, n + j + 1, n + j + 1⟩, some (n + j + 1, false)) := hnext
  rw [hnext'] at t1 t4
  simp only [if_true] at t1 t4
  have hemit : (v.transfer c0).emit k (some (n + j + 1)) (.data (UInt16.ofNat ((n + j + 1) % 65536)) (Spec.block file (v.transfer c0).bs (n + j + 1))) =
      some ⟨some (n + j + 1), dataPacket (n + j + 1) (block file c0.opts.payload (n + j + 1))⟩ := by
    unfold Cfg.emit
    rw [plain_enc he0, data_bytes]
    rfl
  rw [hemit] at t4
  generalize serverSendTick (v.transfer c0) s false false .sent k = q at t1 t2 t3 t4 hs
  rw [t4, t2, h6] at hs
  simp only [Option.isSome_some, Bool.not_false, Bool.and_true, if_true, Option.map_some] at hs
  have hl : v.lifeStep stops X.conn (.tick t ⟨false, .sent, k⟩) = (some (v.sendBlock c t ⟨false, .sent, k⟩).1, (v.sendBlock c t ⟨false, .sent, k⟩).2.1.toList) := by
    simp only [h1, Srv.lifeStep, hact, if_true]
  generalize hdg : dataPacket (n + j + 1) (block file c0.opts.payload (n + j + 1)) = dg at *
  have hnd : X.peer.done = false := by
    cases hd : X.peer.done with
    | false => rfl
    | true => have := h10.mp hd; omega
  have hhear : X.peer.hear c0.opts.payload dg = ⟨n + j + 1, file.take (bytesIn file c0.opts.payload (n + j + 1)), decide (dg.length < c0.opts.payload + 4)⟩ := by
    unfold Receiver.hear
    rw [if_pos ⟨hnd, by rw [← hdg, dataPacket_head, h8]⟩, h8, h9]
    rw [show dg.drop 4 = block file c0.opts.payload (n + j + 1) by rw [← hdg]; rfl, take_bytesIn_succ]
  have e : Y = ⟨some (v.sendBlock c t ⟨false, .sent, k⟩).1, X.peer.hear c0.opts.payload dg, ⟨dg, n + j⟩ :: X.toPeer, X.toServer⟩ := by
    rw [hY]
    simp only [Fetch.run, List.foldl_cons, List.foldl_nil, Fetch.step, Fetch.server, hl, hs, Option.toList_some, List.map_cons, List.map_nil, List.cons_append,
      List.nil_append, List.getElem?_cons_zero, h8, inTime_self, if_true]
  rw [e]
  have hlen : dg.length = (block file c0.opts.payload (n + j + 1)).length + 4 := by rw [← hdg, dataPacket_length]
  refine ⟨⟨⟨_, q.1, m, rfl, ?_, ?_, ?_, t1, by rw [t2]; exact h6, ?_⟩, ?_, ?_, ?_⟩, rfl, rfl⟩
  · rw [hs]; exact h2
  · rw [hs]; exact h3
  · rw [hs]
  · rw [hs]
  · rw [hhear]; simp only; omega
  · rw [hhear]; rfl
  · rw [hhear]
    simp only [decide_eq_true_eq]
    have := block_short_iff file c0.opts.payload (n + j + 1) hpb.1 (by omega) (by omega)
    omega

theorem lock_ticks {v : Srv S} {c0 : Conn} (he0 : c0.enc = none) (hbs : 512 ≤ c0.opts.blockSize) {file : Bytes}
    {age : Option Nat} (stops : Bool) (t k : Nat) {X : Fetch} {n : Nat} (m : Nat) (j : Nat) (h : DownLock v c0 file t X n j)
    (hm : j + m ≤ c0.opts.window) (hN : n + j + m ≤ nblocks file c0.opts.payload) (Y : Fetch)
    (hY : Y = X.run v stops c0.opts.payload age (List.replicate m [FetchEv.tick t ⟨false, .sent, k⟩, .hear 0]).flatten) :
    DownLock v c0 file t Y n (j + m) ∧ Y.toPeer.length = X.toPeer.length + m ∧ Y.toServer = X.toServer := by
  induction m generalizing X j with
  | zero => rw [hY]; exact ⟨h, rfl, rfl⟩
  | succ m ih =>
    rw [List.replicate_succ, List.flatten_cons, Fetch.run_append] at hY
    obtain ⟨g1, g2, g3⟩ := lock_tick he0 hbs (age := age) stops t k h (by omega) (by omega) _ rfl
    generalize X.run v stops c0.opts.payload age [.tick t ⟨false, .sent, k⟩, .hear 0] = X1 at g1 g2 g3 hY
    obtain ⟨q1, q2, q3⟩ := ih (j + 1) g1 (by omega) (by omega) hY
    rw [show j + 1 + m = j + (m + 1) by omega] at q1
    exact ⟨q1, by omega, by rw [q3, g3]⟩

/-- The acknowledgement of a window. -/
theorem lock_confirm {v : Srv S} {c0 : Conn} (he0 : c0.enc = none) (hbs : 512 ≤ c0.opts.blockSize) (hwin : c0.opts.window ≤ 10000) {file : Bytes}
    {age : Option Nat} (stops : Bool) (t k : Nat) {X : Fetch} {n j : Nat} (h : DownLock v c0 file t X n j) (hj : j ≤ c0.opts.window) (hj1 : 1 ≤ j)
    (hN : n + j ≤ nblocks file c0.opts.payload) (Y : Fetch)
    (hY : Y = X.run v stops c0.opts.payload age [.ack, .arrive 0 t ⟨.all, true, k⟩]) :
    DownLock v c0 file t Y (n + j) 0 ∧ Y.toPeer = X.toPeer ∧ Y.toServer.length = X.toServer.length + 1 := by
  have hpb := payload_bounds hbs
  obtain ⟨⟨c, s, m, h1, h2, h3, h4, h5, h6, h7⟩, h8, h9, h10⟩ := h
  have hfin : s.finished = false := by
    cases hf : s.finished with
    | false => rfl
    | true =>
      have : n = nblocks file c0.opts.payload := h5.fin hf
      omega
  have hdeaf : c.deaf = false := by
    obtain ⟨o, e, sd, a, b, m⟩ := c
    simp only at h4
    subst h4
    exact hfin
  obtain ⟨g1, g2, g3, g4⟩ := handle_reader v h4 t (ackPacket (n + j)) ⟨.all, true, k⟩
  have g5 : (v.handle c t (ackPacket (n + j)) ⟨.all, true, k⟩).1.lastSent = c.lastSent := by
    obtain ⟨o, e, sd, a, b, m⟩ := c
    simp only at h4
    subst h4
    simp only [Srv.handle]
    split <;> rfl
  have e1 : v.transfer c = v.transfer c0 := transfer_eq v h2 (by rw [he0]; exact h3)
  rw [e1] at g3
  obtain ⟨hi, hm⟩ := m.index_fresh n (n + j) (nblocks file c0.opts.payload) h5.mapper (by omega) hN (.inl (by omega)) (.inl (by omega))
  have hd : (v.transfer c0).codec.dec (ackPacket (n + j)) = some (Packet.ack (UInt16.ofNat ((n + j) % 65536))).toBytes := by
    rw [plain_dec he0, ack_bytes]
  obtain ⟨w', f1, f2, f3, f4⟩ := send_recv_ack (c := v.transfer c0) hpb.1 h5 hd (Nat.le_refl _) hi hm
  have hcur : w' = ⟨n + j, n + j + 0, n + j + 0⟩ := by
    have hw' := f1.sim.inv
    have c1 := hw'.base_cur
    have c2 := hw'.cur_top
    obtain ⟨b, cu, tp⟩ := w'
    simp only at f2 f3 c1 c2
    have e1 : b = n + j := by omega
    have e2 : cu = n + j := by omega
    have e3 : tp = n + j := by omega
    rw [e1, e2, e3, Nat.add_zero]
  rw [hcur] at f1
  have e : Y = ⟨some (v.handle c t (ackPacket (n + j)) ⟨.all, true, k⟩).1, X.peer, X.toPeer, ⟨ackPacket (n + j), n + j⟩ :: X.toServer⟩ := by
    rw [hY]
    simp only [Fetch.run, List.foldl_cons, List.foldl_nil, Fetch.step, Fetch.server, List.getElem?_cons_zero, h8, inTime_self, if_true, h1, Srv.lifeStep,
      hdeaf, Bool.and_false, Bool.false_eq_true, if_false, g4, Option.toList_none, List.map_nil, List.nil_append]
  rw [e]
  exact ⟨⟨⟨_, _, _, rfl, by rw [g1]; exact h2, by rw [g2]; exact h3, g3, f1, by rw [← h6]; exact f4, by rw [g5]; exact h7⟩, h8, h9, h10⟩, rfl, rfl⟩

theorem lock_windows {v : Srv S} {c0 : Conn} (he0 : c0.enc = none) (hbs : 512 ≤ c0.opts.blockSize) (hwin : 1 ≤ c0.opts.window ∧ c0.opts.window ≤ 10000)
    {file : Bytes} {age : Option Nat} (stops : Bool) (t k : Nat) {X : Fetch} (h : DownLock v c0 file t X 0 0) (r : Nat)
    (hr : r ≤ windows (nblocks file c0.opts.payload) c0.opts.window) (Y : Fetch)
    (hY : Y = X.run v stops c0.opts.payload age (downRounds t k c0.opts.window (nblocks file c0.opts.payload) r)) :
    DownLock v c0 file t Y (min (r * c0.opts.window) (nblocks file c0.opts.payload)) 0 ∧
    Y.toPeer.length = X.toPeer.length + min (r * c0.opts.window) (nblocks file c0.opts.payload) ∧ Y.toServer.length = X.toServer.length + r := by
  induction r generalizing Y with
  | zero =>
    rw [hY, Nat.zero_mul, Nat.zero_min]
    exact ⟨h, rfl, rfl⟩
  | succ r ih =>
    obtain ⟨g1, g2, g3⟩ := ih (by omega) _ rfl
    rw [downRounds, Fetch.run_append, downRound, Fetch.run_append] at hY
    generalize X.run v stops c0.opts.payload age (downRounds t k c0.opts.window (nblocks file c0.opts.payload) r) = X1 at g1 g2 g3 hY
    have hw := windows_spec (nblocks_pos file c0.opts.payload) hwin.1
    have hlt : r * c0.opts.window < nblocks file c0.opts.payload := by
      have : r * c0.opts.window ≤ (windows (nblocks file c0.opts.payload) c0.opts.window - 1) * c0.opts.window := Nat.mul_le_mul_right _ (by omega)
      omega
    have hs : (r + 1) * c0.opts.window = r * c0.opts.window + c0.opts.window := Nat.succ_mul _ _
    rw [Nat.min_eq_left (Nat.le_of_lt hlt)] at g1 g2
    obtain ⟨q1, q2, q3⟩ := lock_ticks he0 hbs (age := age) stops t k (min c0.opts.window (nblocks file c0.opts.payload - r * c0.opts.window)) 0 g1
      (by omega) (by omega) _ rfl
    generalize X1.run v stops c0.opts.payload age (List.replicate (min c0.opts.window (nblocks file c0.opts.payload - r * c0.opts.window))
      [FetchEv.tick t ⟨false, .sent, k⟩, .hear 0]).flatten = X2 at q1 q2 q3 hY
    rw [Nat.zero_add] at q1
    obtain ⟨f1, f2, f3⟩ := lock_confirm he0 hbs hwin.2 (age := age) stops t k q1 (Nat.min_le_left _ _) (by omega) (by omega) Y hY
    have e : r * c0.opts.window + min c0.opts.window (nblocks file c0.opts.payload - r * c0.opts.window) =
        min ((r + 1) * c0.opts.window) (nblocks file c0.opts.payload) := by omega
    rw [e] at f1
    exact ⟨f1, by rw [f2]; omega, by rw [f3, q3]; omega⟩

/-- **C82**, downloads: on a network which loses nothing the peer of C80 fetches a file window after window with one acknowledgement for each of
them. The server sends each window at once: no time passes after the request, no block is sent twice, and at the end the peer has the file
and the server is finished. The file may have any number of blocks. -/
theorem c82_download (v : Srv S) (hb : 512 ≤ v.cfg.maxBlock ∧ v.cfg.maxBlock ≤ 65535) (hw : 1 ≤ v.cfg.maxWindow ∧ v.cfg.maxWindow ≤ 65535)
    (t : Nat) (dg : Bytes) (io : NewIo) (c : Conn) (out : List Bytes) (h : (v.newConn t dg io).result = .ok (c, out)) (he : c.enc = none)
    (r : Request) (name file : Bytes) (size : Option Nat) (hreq : v.requestOf dg = some (false, r))
    (hname : normalizeName r.fileName = some name) (hfile : io.openRead name = some (size, file)) (hwin : windowSize out ≤ 10000)
    (age : Option Nat) (stops : Bool) (nonce : Nat) (N : Nat) (hN : N = file.length / blockSize out + 1) (X : Fetch)
    (hX : X = (Fetch.init c out).run v stops (blockSize out) age (downRounds t nonce (windowSize out) N (windows N (windowSize out)))) :
    X.peer.done = true ∧ X.peer.out = file ∧ (∃ c', X.conn = some c' ∧ c'.finished = true ∧ c'.failed = false) ∧
    X.toPeer.length = out.length + N ∧ X.toServer.length = windows N (windowSize out) := by
  obtain ⟨p1, p2, p3, p4, p5, -⟩ := plain_new hb hw h he
  have hpb := payload_bounds p2
  rw [p4, ← p1] at hN hX
  rw [p5] at hX hwin ⊢
  have hN : N = nblocks file c.opts.payload := hN
  subst hN
  have hls : c.lastSent = t := by
    obtain ⟨write, r', used, keys, name', kind, -, -, -, -, -, -, q, -⟩ := newConn_ok h
    exact q
  have h0 : DownLock v c file t (Fetch.init c out) 0 0 := by
    refine ⟨⟨c, _, Mapper.new, rfl, rfl, he, reader_new h hreq hname hfile, SInv.init (c := v.transfer c) ?_, rfl, hls⟩, rfl, by simp [Fetch.init, bytesIn], ?_⟩
    · intro hk
      unfold Srv.kind at hk
      split at hk
      · cases hk
      · split at hk
        · assumption
        · cases hk
    · simp only [Fetch.init, Bool.false_eq_true, false_iff]
      exact (Nat.succ_ne_zero _).symm
  obtain ⟨q1, q2, q3⟩ := lock_windows he p2 ⟨p3, hwin⟩ (age := age) stops t nonce h0 _ (Nat.le_refl _) X hX
  have hws := (windows_spec (nblocks_pos file c.opts.payload) p3).1
  rw [Nat.min_eq_right hws] at q1 q2
  obtain ⟨⟨c', s, m, k1, k2, k3, k4, k5, k6, k7⟩, k8, k9, k10⟩ := q1
  refine ⟨k10.mpr rfl, ?_, ⟨c', k1, ?_⟩, by rw [q2]; simp [Fetch.init], by rw [q3]; simp [Fetch.init]⟩
  · rw [k9, Nat.add_zero, bytesIn_nblocks _ _ _ hpb.1 (Nat.le_refl _)]
    exact List.take_of_length_le (l := file) (Nat.le_refl _)
  · have hd : s.finished = true := by
      rcases k5.done rfl with hd | hd
      · exact hd
      · rw [k6] at hd; cases hd
    obtain ⟨o, e, sd, a, b, m⟩ := c'
    simp only at k4
    subst k4
    exact ⟨hd, k6⟩

end Tftp.Rfc

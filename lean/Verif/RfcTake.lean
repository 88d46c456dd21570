import Verif.RfcSend
import Verif.RfcUp
/-
C84: this client downloads from a server which follows the RFCs and answers with an OACK (RfcServer.lean).
-/
namespace Tftp.Rfc
open Tftp Spec

variable {S : SigScheme}

/-- A data packet at the client. -/
theorem down_data {c : Cfg} {file : Bytes} {seen t : Nat} {r : RecvSt} {dg : Bytes} (hbs : 0 < c.bs) (hrole : c.receiver = .client)
    (h : RInv c file seen r)
    (hd : c.codec.dec dg = some (Packet.data (UInt16.ofNat (t % 65536)) (block file c.bs t)).toBytes)
    (henc : ∀ n b, c.codec.enc n b = some b)
    (ht : 1 ≤ t) (htN : t ≤ nblocks file c.bs) (hi : (r.w.mapper.index (t % 65536)).2 = t)
    (hm : (r.w.mapper.index (t % 65536)).1.Inv (max seen t)) (ioOk sendOk : Bool) (nonce : Nat) (q : RecvSt × Option Dgram)
    (hq : q = clientRecv c r dg (if ioOk then .all else .err) sendOk nonce) :
    RInv c file (max seen t) q.1 ∧ r.w.written ≤ q.1.w.written ∧
    (∀ d, q.2 = some d → d.bytes.take 2 = [0, 5] ∨ d.bytes = ackPacket q.1.w.written) ∧
    (ioOk = true → sendOk = true → r.failed = false → file.length ≤ c.max → q.1.failed = false ∧
      (t = r.w.written + 1 → q.1.w.written = t ∧ (t = nblocks file c.bs → q.2.map (·.bytes) = some (ackPacket t))) ∧
      (t ≠ r.w.written + 1 → q.1.w.written = r.w.written ∧ q.2.map (·.bytes) = some (ackPacket r.w.written))) := by
  have hw := write_cases (t := t) h hi ioOk
  have hrd := recv_data hbs h hd ht htN hi hm ioOk sendOk nonce
  have hrr : recvRecv c r dg (if ioOk then .all else .err) sendOk nonce = clientRecv c r dg (if ioOk then .all else .err) sendOk nonce := by
    unfold recvRecv; rw [hrole]
  rw [hrr, ← hq] at hrd
  refine ⟨hrd.1, hrd.2.1, ?_⟩
  clear hrd hrr
  subst hq
  have htot := h.total_le
  have hem : ∀ k p, c.emit nonce k p = some ⟨k, p.toBytes⟩ := by intro k p; unfold Cfg.emit; rw [henc]; rfl
  by_cases hnext : t = r.w.written + 1
  · rw [if_pos hnext] at hw
    have hlen := block_length file c.bs t ht
    rw [show t - 1 = r.w.written by omega] at hlen
    have hmono := bytesIn_mono file c.bs (i := r.w.written) (j := t) (by omega)
    have hbl : bytesIn file c.bs t ≤ file.length := by unfold bytesIn; omega
    cases ioOk with
    | false =>
      simp only [Bool.false_eq_true, if_false] at hw ⊢
      simp only [clientRecv, hd, decode_data, toNat_ofNat_mod, hw]
      exact ⟨(fun d hd => nomatch hd), (fun h => nomatch h)⟩
    | true =>
      simp only [if_true] at hw ⊢
      simp only [clientRecv, hd, decode_data, toNat_ofNat_mod, hw, hem]
      by_cases hmax : r.total + (block file c.bs t).length > c.max
      · simp only [hmax, decide_true, if_true]
        refine ⟨?_, ?_⟩
        · intro d hd'
          split at hd'
          · cases hd'; exact .inl rfl
          · cases hd'
        · intro _ _ _ hfit
          omega
      · simp only [hmax, decide_false, Bool.false_eq_true, if_false]
        cases hA : ackDue c r.lastAck t (some (block file c.bs t).length) with
        | true =>
          cases sendOk with
          | true =>
            simp only [if_true]
            refine ⟨?_, ?_⟩
            · intro d hd'; cases hd'; exact .inr (ack_bytes t)
            · intro _ _ hf _
              exact ⟨hf, fun _ => ⟨trivial, fun _ => congrArg some (ack_bytes t)⟩, fun hne => absurd hnext hne⟩
          | false =>
            simp only [if_true]
            exact ⟨(fun d hd => nomatch hd), (fun _ h => nomatch h)⟩
        | false =>
          simp only [Bool.false_eq_true, if_false]
          refine ⟨(fun d hd => nomatch hd), ?_⟩
          intro _ _ hf _
          refine ⟨hf, fun _ => ⟨trivial, fun hlast => ?_⟩, fun hne => absurd hnext hne⟩
          exfalso
          have hshort := (block_short_iff file c.bs t hbs ht htN).mpr hlast
          have : ackDue c r.lastAck t (some (block file c.bs t).length) = true := by
            unfold ackDue
            simp only [Option.getD_some, hshort, decide_true, Bool.or_true]
          rw [this] at hA
          cases hA
  · rw [if_neg hnext] at hw
    have hA : ackDue c r.lastAck r.w.written none = true := by
      unfold ackDue
      simp only [Option.getD_none, hbs, decide_true, Bool.or_true]
    simp only [clientRecv, hd, decode_data, toNat_ofNat_mod, hw, Bool.false_eq_true, if_false, hem, hA, if_true]
    cases sendOk with
    | true =>
      simp only
      refine ⟨?_, ?_⟩
      · intro d hd'; cases hd'; exact .inr (ack_bytes _)
      · intro _ _ hf _
        exact ⟨hf, fun h => absurd h hnext, fun _ => ⟨trivial, congrArg some (ack_bytes _)⟩⟩
    | false =>
      simp only
      exact ⟨(fun d hd => nomatch hd), (fun _ h => nomatch h)⟩

/-! ### The invariant -/

/-- The receiving client: block `seen` is the newest it has heard of, it has written `written` blocks. -/
structure DownAt (file : Bytes) (bs W seen written : Nat) (c : Cfg) (room : Nat) (s : RecvSt) : Prop where
  big : 512 ≤ bs
  room : bs + 4 ≤ room ∧ 516 ≤ room
  cfg : PlainCfg c bs W
  failed : s.failed = false
  finished : s.finished = false
  inv : RInv c file seen s
  written : s.w.written = written

/-- The client. -/
def DownState (v : Cli S) (ep : Ep) (file : Bytes) (bs W : Nat) (started : Bool) (seen written : Nat) : CliSt → Prop
  | .query q => started = false ∧ written = 0 ∧ (ep.ip = v.cfg.endpoint.ip → 516 ≤ q.room)
  | .up _ _ _ _ _ _ => False
  | .down c room ep' s _ _ => ep' = ep ∧ c.max = v.cfg.maxFileSize ∧ DownAt file bs W seen written c room s
  | .done r f => f = file.take (bytesIn file bs written) ∧ ∀ n a, r = .ok (n, a) → written = nblocks file bs ∧ n = file.length

/-- A datagram of the server. -/
def SrvMail (file answer : Bytes) (started : Bool) (m : Mail) : Prop :=
  ((∃ k, m.bytes = dataPacket k (block file (blockSize [answer]) k) ∧ m.stamp < k ∧ k ≤ m.stamp + windowSize [answer] ∧
    k ≤ nblocks file (blockSize [answer])) ∧ started = true) ∨ (m.bytes = answer ∧ m.stamp = 0) ∨ ∃ text, m.bytes = [0, 5] ++ text

/-- The answer arrives at the waiting client, or an error packet, or nothing. -/
theorem take_query {v : Cli S} {j : Job} (hp : Spec.NoEncryption j) {ok : Bool} (hj : j.task = .download ok) (hw : 1 ≤ j.opts.window) {file : Bytes}
    {ep : Ep} {answer : Bytes} (ha : ∃ e, Packet.fromBytes answer = .ok (.optionalAck e)) (hlen : answer.length ≤ 512) {q : Query}
    (hroom : ep.ip = v.cfg.endpoint.ip → 516 ≤ q.room) (i : CliIn)
    (hi : i.recv = .error ∨ i.recv = .wouldBlock ∨ i.recv = .dgram ep answer ∨ ∃ text, i.recv = .dgram ep ([0, 5] ++ text)) :
    DownState v ep file (blockSize [answer]) (windowSize [answer]) false 0 0 (v.step j (.query q) i).1 ∧
    ∀ d ∈ (v.step j (.query q) i).2, d.2.take 2 ≠ [0, 4] ∨
      d.2 = ackPacket 0 ∧ ∃ c room s since auth, (v.step j (.query q) i).1 = .down c room ep s since auth := by
  have hopts := plain_requestOpts v j hp
  simp only [Cli.step, Cli.queryStep]
  have hput : ∀ n ok p b, v.put (v.initialSock j.opts).1 n ok p = some b → b = p.toBytes := by
    intro n ok p b h
    cases ok with
    | true => rw [plain_put v j hp] at h; cases h; rfl
    | false =>
      rw [plain_sock v j hp] at h
      cases h
  have hrecv : ∀ b, (v.initialSock j.opts).1.recv b = some b := by intro b; rw [plain_sock v j hp]; rfl
  have hnone : ∀ r : Except CliErr (Nat × Option Bytes), (∀ n a, r ≠ .ok (n, a)) →
      DownState v ep file (blockSize [answer]) (windowSize [answer]) false 0 0 (.done r []) := by
    intro r hr
    exact ⟨by simp [bytesIn], fun n a h => absurd h (hr n a)⟩
  have herr : ∀ e : CliErr, DownState v ep file (blockSize [answer]) (windowSize [answer]) false 0 0 (.done (.error e) []) :=
    fun e => hnone _ (fun n a h => nomatch h)
  cases hreq : v.put (v.initialSock j.opts).1 i.nonce i.sendOk (j.request q.exts) with
  | none => exact ⟨herr _, by intro d hd; cases hd⟩
  | some req =>
    have hr1 : req.take 2 ≠ [0, 4] := by
      rw [hput _ _ _ _ hreq]
      unfold Job.request
      split
      · show ¬ ([0, 2] : Bytes) = [0, 4]; decide
      · show ¬ ([0, 1] : Bytes) = [0, 4]; decide
    have hone : ∀ d ∈ [(v.cfg.endpoint, req)], d.2.take 2 ≠ [0, 4] := by
      intro d hd
      rw [List.mem_singleton] at hd
      subst hd
      exact hr1
    simp only
    rcases hi with hi | hi | hi
    · rw [hi]; exact ⟨herr _, fun d hd => .inl (hone d hd)⟩
    · rw [hi]
      simp only
      split
      · exact ⟨herr _, fun d hd => .inl (hone d hd)⟩
      · exact ⟨⟨rfl, rfl, hroom⟩, fun d hd => .inl (hone d hd)⟩
    · have key : ∃ b0, i.recv = .dgram ep b0 ∧ (b0 = answer ∨ ∃ text, b0 = [0, 5] ++ text) := by
        rcases hi with hi | ⟨text, hi⟩
        · exact ⟨_, hi, .inl rfl⟩
        · exact ⟨_, hi, .inr ⟨text, rfl⟩⟩
      obtain ⟨b0, hi, hb0⟩ := key
      rw [hi]
      simp only [hrecv]
      split
      · rename_i hip
        exact ⟨⟨rfl, rfl, fun h => absurd h hip⟩, fun d hd => .inl (hone d hd)⟩
      · rename_i hip
        have hip : ep.ip = v.cfg.endpoint.ip := Classical.not_not.mp hip
        have hr := hroom hip
        split
        · exact ⟨herr _, fun d hd => .inl (hone d hd)⟩
        · split
          · rename_i e ps hf
            refine ⟨herr _, ?_⟩
            intro d hd
            rw [List.mem_append] at hd
            rcases hd with hd | hd
            · exact .inl (hone d hd)
            · simp only [List.mem_map, List.mem_filterMap] at hd
              obtain ⟨x, ⟨p, hpm, hx⟩, rfl⟩ := hd
              obtain ⟨c, m, rfl⟩ := reply_fail hf p hpm
              rw [hput _ _ _ _ hx]
              left
              show ¬ ([0, 5] : Bytes) = [0, 4]
              decide
          · refine ⟨⟨rfl, rfl, fun _ => ?_⟩, fun d hd => .inl (hone d hd)⟩
            show 516 ≤ max _ _
            omega
          · rename_i ack o' rk first hacc
            have hb : b0 = answer := by
              rcases hb0 with h | ⟨text, rfl⟩
              · exact h
              · exfalso
                have : ([0, 5] ++ text : Bytes).take q.room = [0, 5] ++ text.take (q.room - 2) := by
                  rw [List.take_append]
                  congr 1
                  exact List.take_of_length_le (by simp only [List.length_cons, List.length_nil]; omega)
                rw [this] at hacc
                unfold Cli.reply at hacc
                rcases quit_read (text.take (q.room - 2)) with ⟨c, m, hx⟩ | ⟨e, hx⟩
                · rw [hx] at hacc
                  simp only at hacc
                  split at hacc <;> cases hacc
                · rw [hx] at hacc
                  cases hacc
            subst hb
            rw [List.take_of_length_le (by omega)] at hacc
            obtain ⟨g1, g2, g3, g4, g5, g6, g7, g8, g9⟩ := cli_reply hopts.1 (by rw [hopts.2.1]; exact hw) (.inr ha) hacc
            have hack : ack = true := by
              apply g8.mpr
              rintro rfl
              obtain ⟨e, he⟩ := ha
              have : Packet.fromBytes (ackPacket 0) = .ok (.ack 0) := by rw [← ack_bytes]; exact decode_ack _
              rw [this] at he
              cases he
            replace g6 := g6 hack
            replace g9 := g9 hack
            subst hack
            subst g9
            unfold Cli.accepted
            simp only [accepted_cfg v j hp, hj]
            have hcfg := plain_cfg v o' g1 (windowSize [b0]) ⟨g4, by omega⟩ o'.payload
            rw [g2] at hcfg
            have hem : ∀ n k p, (v.cfgOf ⟨none, .none, [], o'.payload⟩ o').emit n k p = some ⟨k, p.toBytes⟩ := by
              intro n k p; rfl
            cases ok with
            | false =>
              simp only [Bool.false_eq_true, not_false_eq_true, if_true, List.map_nil, List.append_nil]
              exact ⟨herr _, fun d hd => .inl (hone d hd)⟩
            | true =>
              simp only [not_true_eq_false, if_false, if_true, hem, List.nil_append]
              split
              · refine ⟨herr _, ?_⟩
                intro d hd
                rw [List.mem_append] at hd
                rcases hd with hd | hd
                · exact .inl (hone d hd)
                · simp only [List.mem_map] at hd
                  obtain ⟨x, hx, rfl⟩ := hd
                  unfold Cfg.tooLarge at hx
                  split at hx
                  · rw [hem] at hx
                    simp only [Option.map_some, Option.toList_some, List.mem_singleton] at hx
                    subst hx
                    left
                    show ¬ ([0, 5] : Bytes) = [0, 4]
                    decide
                  · cases hx
              · cases i.sendOk with
                | false =>
                  simp only [Bool.false_eq_true, if_false, List.map_nil, List.append_nil]
                  exact ⟨herr _, fun d hd => .inl (hone d hd)⟩
                | true =>
                  simp only [if_true, Option.map_some, List.map_cons, List.map_nil]
                  refine ⟨⟨rfl, rfl, by omega, ?_, hcfg, rfl, rfl, RInv.init _ _, rfl⟩, ?_⟩
                  · show _ ≤ max _ _ ∧ 516 ≤ max _ _
                    omega
                  · intro d hd
                    rw [List.mem_append] at hd
                    rcases hd with hd | hd
                    · exact .inl (hone d hd)
                    · rw [List.mem_singleton] at hd
                      subst hd
                      exact .inr ⟨ack_bytes 0, _, _, _, _, _, rfl⟩

/-- One iteration of the receiving client. -/
theorem down_iter {v : Cli S} {j : Job} {ep : Ep} {file answer : Bytes} {started : Bool} {confirmed seen written : Nat} {c : Cfg} {room : Nat} {s : RecvSt}
    (h : DownAt file (blockSize [answer]) (windowSize [answer]) seen written c room s) (hmax : c.max = v.cfg.maxFileSize) (hcw : confirmed ≤ written) (hws : written ≤ seen)
    (hsr : seen ≤ confirmed + windowSize [answer]) (hsn : seen ≤ nblocks file (blockSize [answer])) {age : Option Nat}
    (hage : Distinct age (windowSize [answer]) (nblocks file (blockSize [answer])))
    (ha : ∃ e, Packet.fromBytes answer = .ok (.optionalAck e)) (hlen : answer.length ≤ 512) (since : Nat) (auth : Option Bytes) (i : CliIn)
    (hfile : i.file = .all ∨ i.file = .err)
    (hi : i.recv = .error ∨ i.recv = .wouldBlock ∨ ∃ x, i.recv = .dgram ep x.bytes ∧ SrvMail file answer started x ∧ x.stamp ≤ confirmed ∧
      inTime age x.stamp confirmed = true) :
    ∃ seen' written', DownState v ep file (blockSize [answer]) (windowSize [answer]) started seen' written' (v.step j (.down c room ep s since auth) i).1 ∧
      (∀ q, (v.step j (.down c room ep s since auth) i).1 ≠ .query q) ∧
      written ≤ written' ∧ written' ≤ seen' ∧ seen' ≤ confirmed + windowSize [answer] ∧ seen' ≤ nblocks file (blockSize [answer]) ∧
      (started = false → seen' = seen ∧ written' = written ∧ (v.step j (.down c room ep s since auth) i).2 = []) ∧
      (∀ d ∈ (v.step j (.down c room ep s since auth) i).2, DoneMail (windowSize [answer]) written' ⟨d.2, confirmed⟩) := by
  have hout : s.w.out = file.take (bytesIn file (blockSize [answer]) written) := by rw [h.inv.out, h.cfg.bs, h.written]
  have herr : ∀ e : CliErr, DownState v ep file (blockSize [answer]) (windowSize [answer]) started seen written (.done (.error e) s.w.out) :=
    fun e => ⟨hout, fun n a h => nomatch h⟩
  have nod : ∀ (w : Nat), ∀ d ∈ ([] : List (Ep × Bytes)), DoneMail (windowSize [answer]) w ⟨d.2, confirmed⟩ := by intro w d hd; cases hd
  have stay : ∀ r : CliSt × List (Ep × Bytes), r.2 = [] → (∀ q, r.1 ≠ .query q) → DownState v ep file (blockSize [answer]) (windowSize [answer]) started seen written r.1 →
      ∃ seen' written', DownState v ep file (blockSize [answer]) (windowSize [answer]) started seen' written' r.1 ∧ (∀ q, r.1 ≠ .query q) ∧
      written ≤ written' ∧ written' ≤ seen' ∧ seen' ≤ confirmed + windowSize [answer] ∧ seen' ≤ nblocks file (blockSize [answer]) ∧
      (started = false → seen' = seen ∧ written' = written ∧ r.2 = []) ∧
      (∀ d ∈ r.2, DoneMail (windowSize [answer]) written' ⟨d.2, confirmed⟩) := by
    intro r hr hq hst
    refine ⟨seen, written, hst, hq, Nat.le_refl _, hws, hsr, hsn, fun _ => ⟨rfl, rfl, hr⟩, ?_⟩
    rw [hr]
    exact nod _
  simp only [Cli.step]
  rcases hi with hi | hi | ⟨x, hi, hx, hst, hin⟩
  · apply stay <;> simp only [Cli.downStep, hi]
    · intro q hq; cases hq
    · exact herr _
  · apply stay
    · simp only [Cli.downStep, hi]; split <;> rfl
    · simp only [Cli.downStep, hi]
      split <;> (intro q hq; cases hq)
    · simp only [Cli.downStep, hi]
      split
      · exact herr _
      · exact ⟨rfl, hmax, h⟩
  · simp only [Cli.downStep, hi, h.cfg.dec, Option.isNone_some, Bool.false_eq_true, if_false, ne_eq, not_true_eq_false]
    rcases hx with ⟨⟨k, hk, hk1, hk2, hk3⟩, hstd⟩ | ⟨hx, -⟩ | ⟨text, hx⟩
    · obtain ⟨ioOk, hio⟩ : ∃ b : Bool, i.file = if b then .all else .err := by
        rcases hfile with h | h
        · exact ⟨true, h⟩
        · exact ⟨false, h⟩
      have hfresh : (seen ≤ k + 10000 ∨ nblocks file (blockSize [answer]) ≤ 55535) ∧ (k ≤ seen + 10000 ∨ nblocks file (blockSize [answer]) ≤ 55535) := by
        unfold Distinct at hage
        unfold inTime at hin
        cases age with
        | none => exact ⟨.inr hage, .inr hage⟩
        | some l =>
          simp only [decide_eq_true_eq] at hin hage
          exact ⟨.inl (by omega), .inl (by omega)⟩
      obtain ⟨hix, hm⟩ := s.w.mapper.index_fresh seen k (nblocks file (blockSize [answer])) h.inv.mapper hsn hk3 hfresh.1 hfresh.2
      have htk : x.bytes.take room = dataPacket k (block file (blockSize [answer]) k) := by
        rw [hk]
        apply List.take_of_length_le
        rw [dataPacket_length]
        have := h.room.1
        have hb := block_length_le file (blockSize [answer]) k
        omega
      have hd : c.codec.dec (x.bytes.take room) = some (Packet.data (UInt16.ofNat (k % 65536)) (block file c.bs k)).toBytes := by
        rw [h.cfg.dec, htk, data_bytes, h.cfg.bs]
      obtain ⟨g1, g2, g3, -⟩ := down_data (by rw [h.cfg.bs]; have := h.big; omega) h.cfg.receiver h.inv hd h.cfg.enc (by omega)
        (by rw [h.cfg.bs]; exact hk3) hix hm ioOk i.sendOk i.nonce _ rfl
      rw [hio]
      generalize clientRecv c s (x.bytes.take room) (if ioOk then .all else .err) i.sendOk i.nonce = q at g1 g2 g3
      rw [h.written] at g2
      have hmono : q.1.w.written ≤ max seen k := g1.seen
      have hfq : q.1.w.out = file.take (bytesIn file (blockSize [answer]) q.1.w.written) := by rw [g1.out, h.cfg.bs]
      have hmails : ∀ d ∈ ((q.2.map (·.bytes)).toList.map (ep, ·)), DoneMail (windowSize [answer]) q.1.w.written ⟨d.2, confirmed⟩ := by
        intro d hd hd2
        simp only [List.mem_map, Option.mem_toList, Option.map_eq_some_iff] at hd
        obtain ⟨b, ⟨y, hy, rfl⟩, rfl⟩ := hd
        rcases g3 y hy with g | g
        · rw [g] at hd2
          exact absurd hd2 (by decide)
        · exact ⟨q.1.w.written, g, by simp only; omega, by simp only; omega, Nat.le_refl _⟩
      refine ⟨max seen k, q.1.w.written, ?_, ?_, g2, hmono, by omega, by omega, (fun hf => by rw [hstd] at hf; cases hf), ?_⟩
      · split
        · exact ⟨hfq, fun n a h => nomatch h⟩
        · rename_i hf
          split
          · rename_i hfin
            refine ⟨hfq, ?_⟩
            intro n a hna
            have hN := g1.fin hfin
            rw [h.cfg.bs] at hN
            refine ⟨hN, ?_⟩
            simp only [Except.ok.injEq, Prod.mk.injEq] at hna
            rw [← hna.1, g1.total (by simpa using hf), hN, h.cfg.bs, bytesIn_nblocks _ _ _ (by have := h.big; omega) (Nat.le_refl _)]
          · rename_i hfin
            exact ⟨rfl, hmax, h.big, h.room, h.cfg, by simpa using hf, by simpa using hfin, g1, rfl⟩
      · split
        · intro q hq; cases hq
        · split <;> (intro q hq; cases hq)
      · split
        · exact hmails
        · split <;> exact hmails
    · obtain ⟨e, he⟩ := ha
      have : clientRecv c s (x.bytes.take room) i.file i.sendOk i.nonce = (s, none) := by
        unfold clientRecv
        rw [h.cfg.dec, hx, List.take_of_length_le (by have := h.room.2; omega)]
        simp only [he]
      rw [this]
      simp only [h.failed, h.finished, Bool.false_eq_true, if_false]
      exact stay (.down c room ep _ _ auth, _) rfl (by intro q hq; cases hq) ⟨rfl, hmax, h⟩
    · have hr : ∃ s', clientRecv c s (x.bytes.take room) i.file i.sendOk i.nonce = (s', none) ∧ (s' = s ∨ s' = { s with failed := true }) := by
        unfold clientRecv
        have : ([0, 5] ++ text : Bytes).take room = [0, 5] ++ text.take (room - 2) := by
          rw [List.take_append]
          congr 1
          exact List.take_of_length_le (by have := h.room.2; simp only [List.length_cons, List.length_nil]; omega)
        rw [h.cfg.dec, hx, this]
        simp only
        rcases quit_read (text.take (room - 2)) with ⟨cc, mm, hp⟩ | ⟨ee, hp⟩
        · rw [hp]; exact ⟨_, rfl, .inr rfl⟩
        · rw [hp]; exact ⟨_, rfl, .inl rfl⟩
      obtain ⟨s', hr, hs'⟩ := hr
      rw [hr]
      rcases hs' with rfl | rfl
      · simp only [h.failed, h.finished, Bool.false_eq_true, if_false]
        exact stay (.down c room ep _ _ auth, _) rfl (by intro q hq; cases hq) ⟨rfl, hmax, h⟩
      · simp only [if_true]
        exact stay (.done (.error .io) s.w.out, _) rfl (by intro q hq; cases hq) (herr _)

/-- All together. -/
structure TkInv (v : Cli S) (ep : Ep) (file answer : Bytes) (X : Take) (seen written : Nat) : Prop where
  conf : X.confirmed ≤ written
  le : written ≤ seen
  room : seen ≤ X.confirmed + windowSize [answer]
  seen_le : seen ≤ nblocks file (blockSize [answer])
  idle : X.started = false → X.confirmed = 0 ∧ seen = 0
  cli : DownState v ep file (blockSize [answer]) (windowSize [answer]) X.started seen written X.cli
  big : 0 < written → 512 ≤ blockSize [answer]
  toPeer : ∀ m ∈ X.toPeer, m.stamp ≤ X.confirmed ∧ DoneMail (windowSize [answer]) written m ∧ (m.bytes.take 2 = [0, 4] → ∀ q, X.cli ≠ .query q)
  toClient : ∀ m ∈ X.toClient, m.stamp ≤ X.confirmed ∧ SrvMail file answer X.started m

theorem SrvMail.start {file answer : Bytes} {b : Bool} {m : Mail} (h : SrvMail file answer b m) : SrvMail file answer true m := by
  rcases h with h | h | h
  · exact .inl ⟨h.1, rfl⟩
  · exact .inr (.inl h)
  · exact .inr (.inr h)

theorem TkInv.step {v : Cli S} {j : Job} (hp : Spec.NoEncryption j) {ok : Bool} (hj : j.task = .download ok) (hw : 1 ≤ j.opts.window) {file : Bytes}
    {ep : Ep} {answer : Bytes} (ha : ∃ e, Packet.fromBytes answer = .ok (.optionalAck e)) (hlen : answer.length ≤ 512) {age : Option Nat}
    (hage : Distinct age (windowSize [answer]) (nblocks file (blockSize [answer]))) {X : Take} {seen written : Nat}
    (h : TkInv v ep file answer X seen written) (e : TakeEv) (hs : e.sound) :
    ∃ seen' written', TkInv v ep file answer (X.step v j ep answer file age e) seen' written' := by
  obtain ⟨h1, h2, h3, h4, h5, h6, h7, h8, h9⟩ := id h
  cases e with
  | client i k =>
    obtain ⟨i', hi'⟩ : ∃ i', i' = received ep (deliver age X.toClient X.confirmed k) i := ⟨_, rfl⟩
    have hif : i'.file = i.file := by rw [hi']; rfl
    have hr : i'.recv = .error ∨ i'.recv = .wouldBlock ∨
        ∃ x, i'.recv = .dgram ep x.bytes ∧ SrvMail file answer X.started x ∧ x.stamp ≤ X.confirmed ∧ inTime age x.stamp X.confirmed = true := by
      rcases received_cases ep (deliver age X.toClient X.confirmed k) i with g | g | ⟨b, g1, g2⟩
      · rw [← hi'] at g; exact .inl g
      · rw [← hi'] at g; exact .inr (.inl g)
      · obtain ⟨x, hx, rfl, hin⟩ := deliver_some g1
        rw [← hi'] at g2
        exact .inr (.inr ⟨x, g2, (h9 x hx).2, (h9 x hx).1, hin⟩)
    simp only [Take.step]
    rw [← hi']
    have old : ∀ (st : CliSt) (w' : Nat), written ≤ w' → (∀ q, st ≠ .query q) ∨ (∃ q, X.cli = .query q) →
        ∀ m ∈ X.toPeer, m.stamp ≤ X.confirmed ∧ DoneMail (windowSize [answer]) w' m ∧ (m.bytes.take 2 = [0, 4] → ∀ q, st ≠ .query q) := by
      intro st w' hle hst m hm
      obtain ⟨g1, g2, g3⟩ := h8 m hm
      refine ⟨g1, g2.mono hle, fun hd => ?_⟩
      rcases hst with hst | ⟨q, hq⟩
      · exact hst
      · exact absurd hq (g3 hd q)
    cases hc : X.cli with
    | query q =>
      rw [hc] at h6
      obtain ⟨hns, hw0, hroom⟩ := h6
      have hr' : i'.recv = .error ∨ i'.recv = .wouldBlock ∨ i'.recv = .dgram ep answer ∨ ∃ text, i'.recv = .dgram ep ([0, 5] ++ text) := by
        rcases hr with g | g | ⟨x, g, hx, hst, -⟩
        · exact .inl g
        · exact .inr (.inl g)
        · rcases hx with hx | hx | ⟨text, hx⟩
          · rw [hns] at hx; exact absurd hx.2 (by decide)
          · rw [hx.1] at g; exact .inr (.inr (.inl g))
          · rw [hx] at g; exact .inr (.inr (.inr ⟨text, g⟩))
      obtain ⟨g1, g2⟩ := take_query (file := file) hp hj hw ha hlen hroom i' hr'
      have hidle := h5 hns
      obtain ⟨hc0, rfl⟩ := hidle
      subst hw0
      generalize hz : v.step j (.query q) i' = z at g1 g2 ⊢
      refine ⟨0, 0, h1, h2, h3, h4, h5, by simp only; rw [hns]; exact g1, h7, ?_, h9⟩
      intro x hx
      simp only [List.mem_append, List.mem_map, List.mem_filter] at hx
      rcases hx with ⟨d, ⟨hd, -⟩, rfl⟩ | hx
      · refine ⟨Nat.le_refl _, ?_, ?_⟩
        · intro hd2
          rcases g2 d hd with g | ⟨g, -⟩
          · exact absurd hd2 g
          · exact ⟨0, g, by simp only; omega, Nat.zero_le _, Nat.le_refl _⟩
        · intro hd2
          rcases g2 d hd with g | ⟨-, c, room, s, since, auth, g⟩
          · exact absurd hd2 g
          · simp only
            rw [g]
            intro q hq; cases hq
      · exact old _ 0 (Nat.le_refl _) (.inr ⟨q, hc⟩) x hx
    | down c room ep' s since auth =>
      rw [hc] at h6
      obtain ⟨rfl, hmx, h6⟩ := h6
      obtain ⟨seen', written', g1, g2, g3, g4, g5, g6, g7, g8⟩ := down_iter (v := v) (j := j) h6 hmx h1 h2 h3 h4 hage ha hlen since auth i' (by rw [hif]; exact hs) hr
      generalize hz : v.step j (.down c room ep' s since auth) i' = z at g1 g2 g7 g8 ⊢
      refine ⟨seen', written', Nat.le_trans h1 g3, g4, g5, g6, ?_, g1, fun _ => h6.big, ?_, h9⟩
      · intro hns
        exact ⟨(h5 hns).1, by rw [(g7 hns).1]; exact (h5 hns).2⟩
      · intro x hx
        simp only [List.mem_append, List.mem_map, List.mem_filter] at hx
        rcases hx with ⟨d, ⟨hd, -⟩, rfl⟩ | hx
        · exact ⟨Nat.le_refl _, g8 d hd, fun _ => g2⟩
        · exact old _ _ g3 (.inl g2) x hx
    | up => rw [hc] at h6; exact absurd h6 id
    | done r f =>
      rw [hc] at h6
      refine ⟨seen, written, h1, h2, h3, h4, h5, h6, h7, ?_, h9⟩
      intro x hx
      exact old _ _ (Nat.le_refl _) (.inl (by intro q hq; cases hq)) x hx
  | hear k =>
    simp only [Take.step]
    cases hd : deliver age X.toPeer X.confirmed (some k) with
    | none => exact ⟨seen, written, h⟩
    | some b =>
      obtain ⟨x, hx, rfl, hin⟩ := deliver_some hd
      have hx' := h8 x hx
      simp only
      cases hst : X.started with
      | true =>
        simp only [if_true]
        obtain ⟨g1, g2⟩ := heard_ack (file := file) (bs := blockSize [answer]) hage hx'.1 hin hx'.2.1 h1 (by omega)
        refine ⟨seen, written, g2, h2, by simp only; omega, h4, (fun h => nomatch h), by rw [hst] at h6; exact h6, h7, ?_, ?_⟩
        · intro m hm
          exact ⟨Nat.le_trans (h8 m hm).1 g1, (h8 m hm).2⟩
        · intro m hm
          exact ⟨Nat.le_trans (h9 m hm).1 g1, (h9 m hm).2.start⟩
      | false =>
        simp only [Bool.false_eq_true, if_false]
        by_cases hb : x.bytes = ackPacket 0
        · simp only [hb, decide_true]
          have hnq := hx'.2.2 (by rw [hb]; rfl)
          refine ⟨seen, written, h1, h2, h3, h4, (fun h => nomatch h), ?_, h7, h8, fun m hm => ⟨(h9 m hm).1, (h9 m hm).2.start⟩⟩
          simp only
          cases hc : X.cli with
          | query q => exact absurd hc (hnq q)
          | up => rw [hc] at h6; exact h6
          | down c room ep' s since auth => rw [hc] at h6; exact h6
          | done r f => rw [hc] at h6; exact h6
        · simp only [hb, decide_false]
          exact ⟨seen, written, h1, h2, h3, h4, fun _ => h5 hst, by rw [← hst]; exact h6, h7, h8, by rw [← hst]; exact h9⟩
  | oack =>
    simp only [Take.step]
    split
    · exact ⟨seen, written, h⟩
    · rename_i hst
      refine ⟨seen, written, h1, h2, h3, h4, h5, h6, h7, h8, ?_⟩
      intro m hm
      simp only [List.mem_cons] at hm
      rcases hm with rfl | hm
      · exact ⟨Nat.le_refl _, .inr (.inl ⟨rfl, (h5 (by simpa using hst)).1⟩)⟩
      · exact h9 m hm
  | send n =>
    simp only [Take.step]
    split
    · rename_i hn
      refine ⟨seen, written, h1, h2, h3, h4, h5, h6, h7, h8, ?_⟩
      intro m hm
      simp only [List.mem_cons] at hm
      rcases hm with rfl | hm
      · exact ⟨Nat.le_refl _, .inl ⟨⟨_, rfl, by simp only; omega, by simp only; omega, hn.2.2⟩, hn.1⟩⟩
      · exact h9 m hm
    · exact ⟨seen, written, h⟩
  | quit text =>
    refine ⟨seen, written, h1, h2, h3, h4, h5, h6, h7, h8, ?_⟩
    intro m hm
    simp only [Take.step, List.mem_cons] at hm
    rcases hm with rfl | hm
    · exact ⟨Nat.le_refl _, .inr (.inr ⟨text, rfl⟩)⟩
    · exact h9 m hm

theorem TkInv.run {v : Cli S} {j : Job} (hp : Spec.NoEncryption j) {ok : Bool} (hj : j.task = .download ok) (hw : 1 ≤ j.opts.window) {file : Bytes}
    {ep : Ep} {answer : Bytes} (ha : ∃ e, Packet.fromBytes answer = .ok (.optionalAck e)) (hlen : answer.length ≤ 512) {age : Option Nat}
    (hage : Distinct age (windowSize [answer]) (nblocks file (blockSize [answer]))) (es : List TakeEv) (hs : ∀ e ∈ es, e.sound) {X : Take} {seen written : Nat}
    (h : TkInv v ep file answer X seen written) : ∃ seen' written', TkInv v ep file answer (X.run v j ep answer file age es) seen' written' := by
  induction es generalizing X seen written with
  | nil => exact ⟨_, _, h⟩
  | cons e r ih =>
    obtain ⟨_, _, h'⟩ := h.step hp hj hw ha hlen hage e (hs e (by simp))
    exact ih (fun e he => hs e (by simp [he])) h'

theorem TkInv.init (v : Cli S) (j : Job) (t : Nat) (ep : Ep) (file answer : Bytes) : TkInv v ep file answer (Take.init v j t) 0 0 := by
  refine ⟨Nat.le_refl _, Nat.le_refl _, Nat.zero_le _, Nat.zero_le _, fun _ => ⟨rfl, rfl⟩, ⟨rfl, rfl, fun _ => ?_⟩, fun h => absurd h (Nat.lt_irrefl _), ?_, ?_⟩
  · show 516 ≤ max _ _
    omega
  · intro m hm; cases hm
  · intro m hm; cases hm

theorem TkInv.lost {v : Cli S} {ep : Ep} {file answer : Bytes} {X : Take} {seen written : Nat} (h : TkInv v ep file answer X seen written) :
    TkInv v ep file answer X.lost seen written := by
  obtain ⟨h1, h2, h3, h4, h5, h6, h7, h8, h9⟩ := h
  exact ⟨h1, h2, h3, h4, h5, h6, h7, (by intro m hm; cases hm), (by intro m hm; cases hm)⟩

theorem TkInv.file {v : Cli S} {ep : Ep} {file answer : Bytes} {X : Take} {seen written : Nat} (h : TkInv v ep file answer X seen written) :
    fileOf X.cli = file.take (bytesIn file (blockSize [answer]) written) := by
  have h6 := h.cli
  cases hc : X.cli with
  | query q => rw [hc] at h6; rw [h6.2.1]; simp [fileOf, bytesIn]
  | up => rw [hc] at h6; exact absurd h6 id
  | down c room ep' s since auth =>
    rw [hc] at h6
    show s.w.out = _
    rw [h6.2.2.inv.out, h6.2.2.cfg.bs, h6.2.2.written]
  | done r f => rw [hc] at h6; exact h6.1

/-! ### Completion -/

theorem Take.run_append (v : Cli S) (j : Job) (ep : Ep) (answer file : Bytes) (age : Option Nat) (X : Take) (es fs : List TakeEv) :
    X.run v j ep answer file age (es ++ fs) = (X.run v j ep answer file age es).run v j ep answer file age fs := List.foldl_append

/-- A datagram of the server which does not make the client fail. -/
theorem down_step (v : Cli S) (j : Job) (ep : Ep) {c : Cfg} {room : Nat} {s : RecvSt} {x : Bytes} (i : CliIn) (hi : i.recv = .dgram ep x)
    (htk : x.take room = x) (hd : (c.codec.dec x).isSome = true) (hf : (clientRecv c s x i.file i.sendOk i.nonce).1.failed = false) (since : Nat)
    (auth : Option Bytes) :
    v.step j (.down c room ep s since auth) i =
      (if (clientRecv c s x i.file i.sendOk i.nonce).1.finished = true then
        .done (.ok ((clientRecv c s x i.file i.sendOk i.nonce).1.total, auth)) (clientRecv c s x i.file i.sendOk i.nonce).1.w.out
      else .down c room ep (clientRecv c s x i.file i.sendOk i.nonce).1
        (if (clientRecv c s x i.file i.sendOk i.nonce).1.w.written > s.w.written then i.t else since) auth,
      ((clientRecv c s x i.file i.sendOk i.nonce).2.map (·.bytes)).toList.map (ep, ·)) := by
  have hd' : (c.codec.dec x).isNone = false := by cases h : c.codec.dec x <;> simp_all
  simp only [Cli.step, Cli.downStep, hi, htk, hd', Bool.false_eq_true, if_false, ne_eq, not_true_eq_false]
  generalize clientRecv c s x i.file i.sendOk i.nonce = q at hf ⊢
  cases hfin : q.1.finished <;> simp [hf]

/-- The server sends the oldest block which is not confirmed, and the client hears it. -/
theorem take_round {v : Cli S} {j : Job} {ep : Ep} {file answer : Bytes} {age : Option Nat}
    (hage : Distinct age (windowSize [answer]) (nblocks file (blockSize [answer]))) (hfit : file.length ≤ v.cfg.maxFileSize)
    {X : Take} {seen written : Nat} (h : TkInv v ep file answer X seen written) (hst : X.started = true)
    {c : Cfg} {room : Nat} {ep' : Ep} {s : RecvSt} {since : Nat} {auth : Option Bytes} (hc : X.cli = .down c room ep' s since auth) (Y : Take)
    (hY : Y = X.run v j ep answer file age [.send 0, .client fine (some 0)]) :
    written < nblocks file (blockSize [answer]) ∧ Y.confirmed = X.confirmed ∧ Y.started = true ∧
    (X.confirmed < written → (∃ s' since', Y.cli = .down c room ep s' since' auth ∧ s'.w.written = written) ∧
      Y.toPeer = ⟨ackPacket written, X.confirmed⟩ :: X.toPeer) ∧
    (X.confirmed = written → written + 1 < nblocks file (blockSize [answer]) →
      ∃ s' since', Y.cli = .down c room ep s' since' auth ∧ s'.w.written = written + 1) ∧
    (X.confirmed = written → written + 1 = nblocks file (blockSize [answer]) → (∃ a f, Y.cli = .done (.ok (file.length, a)) f) ∧
      Y.toPeer = ⟨ackPacket (written + 1), X.confirmed⟩ :: X.toPeer) := by
  have hcli := h.cli
  rw [hc] at hcli
  obtain ⟨rfl, hmax, hd⟩ := hcli
  have hlt : written < nblocks file (blockSize [answer]) := by
    have h1 := hd.inv.done
    rw [hd.cfg.bs, hd.written, hd.failed, hd.finished] at h1
    have := h.le
    have := h.seen_le
    rcases Nat.lt_or_ge written (nblocks file (blockSize [answer])) with h2 | h2
    · exact h2
    · have := h1 (by omega); simp at this
  have hcw := h.conf
  have hwin := hd.cfg.win
  have hbig := hd.big
  obtain ⟨x, hx⟩ : ∃ x, x = dataPacket (X.confirmed + 1) (block file (blockSize [answer]) (X.confirmed + 1)) := ⟨_, rfl⟩
  have hYs : Y = { X with cli := (v.step j X.cli { fine with recv := .dgram ep' x }).1
                          toClient := ⟨x, X.confirmed⟩ :: X.toClient
                          toPeer := ((v.step j X.cli { fine with recv := .dgram ep' x }).2.filter (·.1 = ep')).map (fun d => ⟨d.2, X.confirmed⟩) ++ X.toPeer } := by
    rw [hY]
    simp only [Take.run, List.foldl_cons, List.foldl_nil, Take.step, Nat.add_zero]
    rw [if_pos ⟨hst, by omega, by omega⟩]
    simp only
    rw [← hx]
    have hdl : deliver age (⟨x, X.confirmed⟩ :: X.toClient) X.confirmed (some 0) = some x := deliver_zero age ⟨x, X.confirmed⟩ X.toClient
    rw [hdl]
    rfl
  have hfresh : (seen ≤ X.confirmed + 1 + 10000 ∨ nblocks file (blockSize [answer]) ≤ 55535) ∧
      (X.confirmed + 1 ≤ seen + 10000 ∨ nblocks file (blockSize [answer]) ≤ 55535) := by
    have := h.room
    have := h.le
    unfold Distinct at hage
    cases age with
    | none => exact ⟨.inr hage, .inr hage⟩
    | some l =>
      simp only at hage
      exact ⟨.inl (by omega), .inl (by omega)⟩
  obtain ⟨hix, hm⟩ := s.w.mapper.index_fresh seen (X.confirmed + 1) (nblocks file (blockSize [answer])) hd.inv.mapper h.seen_le (by omega) hfresh.1 hfresh.2
  have htk : x.take room = x := by
    apply List.take_of_length_le
    rw [hx, dataPacket_length]
    have := hd.room.1
    have hb := block_length_le file (blockSize [answer]) (X.confirmed + 1)
    omega
  have hdc : c.codec.dec x = some (Packet.data (UInt16.ofNat ((X.confirmed + 1) % 65536)) (block file c.bs (X.confirmed + 1))).toBytes := by
    rw [hd.cfg.dec, hx, data_bytes, hd.cfg.bs]
  obtain ⟨g1, g2, g3, g4⟩ := down_data (by rw [hd.cfg.bs]; omega) hd.cfg.receiver hd.inv hdc hd.cfg.enc (by omega)
    (by rw [hd.cfg.bs]; omega) hix hm true true 0 _ rfl
  obtain ⟨g4, g5, g6⟩ := g4 rfl rfl hd.failed (by rw [hmax]; exact hfit)
  have hstep : v.step j (.down c room ep' s since auth) { fine with recv := .dgram ep' x } =
      (if (clientRecv c s x .all true 0).1.finished = true then
        .done (.ok ((clientRecv c s x .all true 0).1.total, auth)) (clientRecv c s x .all true 0).1.w.out
      else .down c room ep' (clientRecv c s x .all true 0).1 (if (clientRecv c s x .all true 0).1.w.written > s.w.written then 0 else since) auth,
      ((clientRecv c s x .all true 0).2.map (·.bytes)).toList.map (ep', ·)) := by
    exact down_step v j ep' { fine with recv := .dgram ep' x } rfl htk (by rw [hdc]; rfl) g4 since auth
  rw [hc, hstep] at hYs
  simp only [if_true] at g1 g4 g5 g6
  generalize clientRecv c s x .all true 0 = q at g1 g4 g5 g6 hYs
  rw [hd.written] at g5 g6
  rw [hd.cfg.bs] at g5
  have hfin : q.1.finished = true ↔ q.1.w.written = nblocks file (blockSize [answer]) := by
    constructor
    · intro hf; rw [← hd.cfg.bs]; exact g1.fin hf
    · intro hf
      rcases g1.done (by rw [hd.cfg.bs]; exact hf) with k | k
      · exact k
      · rw [g4] at k; cases k
  have hpeer : ∀ y, q.2.map (·.bytes) = some y → Y.toPeer = ⟨y, X.confirmed⟩ :: X.toPeer := by
    intro y hy
    rw [hYs, hy]
    simp
  refine ⟨hlt, by rw [hYs], by rw [hYs]; exact hst, ?_, ?_, ?_⟩
  · intro hne
    obtain ⟨k1, k2⟩ := g6 (by omega)
    refine ⟨?_, hpeer _ k2⟩
    have hnf : ¬ q.1.finished = true := by rw [hfin]; omega
    refine ⟨q.1, if q.1.w.written > s.w.written then 0 else since, ?_, k1⟩
    rw [hYs]
    simp only
    rw [if_neg hnf]
  · intro heq hN
    obtain ⟨k1, -⟩ := g5 (by omega)
    have hnf : ¬ q.1.finished = true := by rw [hfin]; omega
    refine ⟨q.1, if q.1.w.written > s.w.written then 0 else since, ?_, by omega⟩
    rw [hYs]
    simp only
    rw [if_neg hnf]
  · intro heq hN
    obtain ⟨k1, k2⟩ := g5 (by omega)
    have hf : q.1.finished = true := by rw [hfin]; omega
    refine ⟨⟨auth, q.1.w.out, ?_⟩, by rw [← heq]; exact hpeer _ (k2 (by omega))⟩
    rw [hYs]
    simp only
    rw [if_pos hf]
    have ht := g1.total g4
    rw [hfin.mp hf, hd.cfg.bs, bytesIn_nblocks _ _ _ (by omega) (Nat.le_refl _)] at ht
    rw [ht]

/-- The server hears the newest datagram. -/
theorem take_hear {v : Cli S} {j : Job} {ep : Ep} {file answer : Bytes} {age : Option Nat}
    (hage : Distinct age (windowSize [answer]) (nblocks file (blockSize [answer]))) {X : Take} (hst : X.started = true) {n : Nat} {ms : List Mail}
    (hm : X.toPeer = ⟨ackPacket n, X.confirmed⟩ :: ms) (h1 : X.confirmed < n) (h2 : n ≤ X.confirmed + windowSize [answer])
    (h3 : n ≤ nblocks file (blockSize [answer])) : X.run v j ep answer file age [.hear 0] = { X with confirmed := n } := by
  simp only [Take.run, List.foldl_cons, List.foldl_nil, Take.step, hst, if_true]
  rw [hm]
  have hdl : deliver age (⟨ackPacket n, X.confirmed⟩ :: ms) X.confirmed (some 0) = some (ackPacket n) := deliver_zero age ⟨ackPacket n, X.confirmed⟩ ms
  rw [hdl]
  simp only
  rw [heard_exact hage h1 h2 h3]

theorem take_completes {v : Cli S} {j : Job} (hp : Spec.NoEncryption j) {ok : Bool} (hj : j.task = .download ok) (hw : 1 ≤ j.opts.window) {file : Bytes}
    {ep : Ep} {answer : Bytes} (ha : ∃ e, Packet.fromBytes answer = .ok (.optionalAck e)) (hlen : answer.length ≤ 512) {age : Option Nat}
    (hage : Distinct age (windowSize [answer]) (nblocks file (blockSize [answer]))) (hfit : file.length ≤ v.cfg.maxFileSize) (n : Nat)
    {X : Take} {seen written : Nat} (h : TkInv v ep file answer X seen written) (hst : X.started = true)
    (hn : nblocks file (blockSize [answer]) ≤ X.confirmed + n) (c : Cfg) (room : Nat) (s : RecvSt) (since : Nat) (auth : Option Bytes)
    (hc : X.cli = .down c room ep s since auth) :
    ∃ fs a f, (∀ e ∈ fs, e.sound) ∧ (X.run v j ep answer file age fs).confirmed = nblocks file (blockSize [answer]) ∧
      (X.run v j ep answer file age fs).cli = .done (.ok (file.length, a)) f := by
  have hsound : ∀ e ∈ ([.send 0, .client fine (some 0)] : List TakeEv), e.sound := by
    intro e he
    simp only [List.mem_cons, List.not_mem_nil, or_false] at he
    rcases he with rfl | rfl
    · exact trivial
    · exact .inl rfl
  have hsound1 : ∀ e ∈ ([.hear 0] : List TakeEv), e.sound := by
    intro e he
    simp only [List.mem_singleton] at he
    subst he
    exact trivial
  induction n generalizing X seen written s since with
  | zero =>
    have := (take_round (j := j) hage hfit h hst hc _ rfl).1
    have := h.conf
    omega
  | succ n ih =>
    -- a client which has more than the server knows
    have more : ∀ (X : Take) (seen written : Nat) (s : RecvSt) (since : Nat), TkInv v ep file answer X seen written → X.started = true →
        nblocks file (blockSize [answer]) ≤ X.confirmed + (n + 1) → X.cli = .down c room ep s since auth → X.confirmed < written →
        ∃ fs a f, (∀ e ∈ fs, e.sound) ∧ (X.run v j ep answer file age fs).confirmed = nblocks file (blockSize [answer]) ∧
          (X.run v j ep answer file age fs).cli = .done (.ok (file.length, a)) f := by
      intro X seen written s since h hst hn hc hlt
      generalize hX1 : X.run v j ep answer file age [.send 0, .client fine (some 0)] = X1
      obtain ⟨g1, g2, g3, g4, -⟩ := take_round (j := j) hage hfit h hst hc X1 hX1.symm
      obtain ⟨⟨s1, since1, g4, g5⟩, g6⟩ := g4 hlt
      obtain ⟨seen1, written1, h1⟩ := h.run hp hj hw ha hlen (age := age) hage _ hsound
      rw [hX1] at h1
      have hw1 : written1 = written := by
        have := h1.cli
        rw [g4] at this
        rw [← this.2.2.written, g5]
      have hroom := h.room
      have hle := h.le
      rw [← g2] at g6
      have hh := take_hear (v := v) (j := j) (ep := ep) hage g3 g6 (by omega) (by omega) (by omega)
      obtain ⟨seen2, written2, h2⟩ := h1.run hp hj hw ha hlen (age := age) hage _ hsound1
      rw [hh] at h2
      obtain ⟨fs, a, f, k1, k2, k3⟩ := ih h2 g3 (by simp only; omega) s1 since1 g4
      refine ⟨[.send 0, .client fine (some 0)] ++ ([.hear 0] ++ fs), a, f, ?_, ?_, ?_⟩
      · intro e he
        simp only [List.mem_append] at he
        rcases he with he | he | he
        · exact hsound e (by simpa using he)
        · exact hsound1 e (by simpa using he)
        · exact k1 e he
      · rw [Take.run_append, hX1, Take.run_append, hh]; exact k2
      · rw [Take.run_append, hX1, Take.run_append, hh]; exact k3
    by_cases hlt : X.confirmed < written
    · exact more X seen written s since h hst hn hc hlt
    · have heq : X.confirmed = written := by have := h.conf; omega
      generalize hX1 : X.run v j ep answer file age [.send 0, .client fine (some 0)] = X1
      obtain ⟨g1, g2, g3, -, g4, g5⟩ := take_round (j := j) hage hfit h hst hc X1 hX1.symm
      obtain ⟨seen1, written1, h1⟩ := h.run hp hj hw ha hlen (age := age) hage _ hsound
      rw [hX1] at h1
      by_cases hN : written + 1 < nblocks file (blockSize [answer])
      · obtain ⟨s1, since1, g4, g6⟩ := g4 heq hN
        have hw1 : written1 = written + 1 := by
          have := h1.cli
          rw [g4] at this
          rw [← this.2.2.written, g6]
        obtain ⟨fs, a, f, k1, k2, k3⟩ := more X1 seen1 written1 s1 since1 h1 g3 (by omega) g4 (by omega)
        refine ⟨[.send 0, .client fine (some 0)] ++ fs, a, f, ?_, ?_, ?_⟩
        · intro e he
          simp only [List.mem_append] at he
          rcases he with he | he
          · exact hsound e (by simpa using he)
          · exact k1 e he
        · rw [Take.run_append, hX1]; exact k2
        · rw [Take.run_append, hX1]; exact k3
      · obtain ⟨⟨a, f, g5⟩, g6⟩ := g5 heq (by omega)
        have hwin : 1 ≤ windowSize [answer] := by
          have := h.cli
          rw [hc] at this
          have := this.2.2.cfg.win
          omega
        rw [← g2] at g6
        have hh := take_hear (v := v) (j := j) (ep := ep) hage g3 g6 (by omega) (by omega) (by omega)
        refine ⟨[.send 0, .client fine (some 0)] ++ [.hear 0], a, f, ?_, ?_, ?_⟩
        · intro e he
          simp only [List.mem_append] at he
          rcases he with he | he
          · exact hsound e (by simpa using he)
          · exact hsound1 e (by simpa using he)
        · rw [Take.run_append, hX1, hh]; simp only; omega
        · rw [Take.run_append, hX1, hh]; exact g5

/-- The options with which the waiting client makes its request. -/
theorem AskState.takes {v : Cli S} {j : Job} {ep : Ep} {answer file : Bytes} {age : Option Nat} (es : List TakeEv) {X : Take} (h : AskState v j X.cli) :
    AskState v j (X.run v j ep answer file age es).cli := by
  induction es generalizing X with
  | nil => exact h
  | cons e r ih =>
    apply ih
    cases e with
    | client i k => exact h.step _
    | hear k =>
      simp only [Take.step]
      split
      · split <;> exact h
      · exact h
    | oack => simp only [Take.step]; split <;> exact h
    | send n => simp only [Take.step]; split <;> exact h
    | quit text => exact h

/-- The size in an OACK. -/
theorem cli_size {hasKey : Bool} {known : Option Bytes} {used e : Exts} {o o' : Opts} {rk : Option RemoteKeys} {out : List Packet}
    (h : cliOack S hasKey known used o e = (.ok (o', rk), out)) (hl : o.level = .none) :
    o'.fileSize = o.fileSize ∨ o'.fileSize.getD 0 = ((e .transferSize).bind (parseUInt (2 ^ 64 - 1))).getD 0 := by
  unfold cliOack at h
  split at h
  · split at h
    · cases h
    · rename_i o2 rk2 hp
      split at h
      · cases h
      · simp only [Prod.mk.injEq, Except.ok.injEq] at h
        obtain ⟨⟨rfl, rfl⟩, -⟩ := h
        unfold cliParse at hp
        split at hp
        · cases hp
        · rename_i o3 hn
          have hlev : o3.level = o.level ∧ (o3.fileSize = o.fileSize ∨ o3.fileSize.getD 0 = ((e .transferSize).bind (parseUInt (2 ^ 64 - 1))).getD 0) := by
            unfold cliNumbers at hn
            split at hn
            · cases hn
            rename_i o4 h1
            split at hn
            · cases hn
            rename_i o5 h2
            split at hn
            · cases hn
            rename_i o6 h3
            have k1 : o4.level = o.level ∧ o4.fileSize = o.fileSize := by
              unfold cliBlock at h1
              split at h1
              · simp only at h1
                split at h1
                · cases h1; exact ⟨rfl, rfl⟩
                · cases h1
              · cases h1; exact ⟨rfl, rfl⟩
            have k2 : o5.level = o4.level ∧ o5.fileSize = o4.fileSize := by
              unfold cliWindow at h2
              split at h2
              · simp only at h2
                split at h2
                · cases h2; exact ⟨rfl, rfl⟩
                · cases h2
              · cases h2; exact ⟨rfl, rfl⟩
            have k3 : o6.level = o5.level ∧ o6.fileSize = o5.fileSize := by
              unfold cliTimeout at h3
              split at h3
              · simp only at h3
                split at h3
                · cases h3; exact ⟨rfl, rfl⟩
                · cases h3
              · cases h3; exact ⟨rfl, rfl⟩
            unfold cliSize at hn
            split at hn
            · rename_i t ht
              simp only at hn
              split at hn
              · cases hn
                refine ⟨by simp only [k3.1, k2.1, k1.1], ?_⟩
                right
                simp [ht]
              · split at hn
                · cases hn
                · cases hn
                  exact ⟨by simp only [k3.1, k2.1, k1.1], .inl (by simp only [k3.2, k2.2, k1.2])⟩
            · cases hn
              exact ⟨by simp only [k3.1, k2.1, k1.1], .inl (by simp only [k3.2, k2.2, k1.2])⟩
          rw [if_pos (by rw [hlev.1]; exact hl)] at hp
          cases hp
          exact hlev.2
  · cases h

/-- The OACK reaches the waiting client. -/
theorem take_accept {v : Cli S} {j : Job} (hp : Spec.NoEncryption j) (hj : j.task = .download true)
    (hb : j.opts.blockSize ≤ 65535) (hw : j.opts.window ≤ 65535) (hs : j.opts.fileSize = none ∨ j.opts.fileSize = some 0)
    {ep : Ep} (hep : ep = v.cfg.endpoint ∨ ep.ip = v.cfg.endpoint.ip ∧ v.cfg.allowPortChange = true) {answer : Bytes} (hlen : answer.length ≤ 512) {q : Query}
    (hq : AskState v j (.query q)) (hroom : 516 ≤ q.room) {e : Exts} (ha : Packet.fromBytes answer = .ok (.optionalAck e)) (hc : Confirms q.exts e)
    {n : Nat} (hn : n ≤ v.cfg.maxFileSize) (hsize : ∀ t, e .transferSize = some t → parseUInt (2 ^ 64 - 1) t = some n) :
    ∃ c room s since auth req, v.step j (.query q) { fine with recv := .dgram ep answer } =
      (.down c room ep s since auth, [(v.cfg.endpoint, req), (ep, ackPacket 0)]) := by
  have hopts := plain_requestOpts v j hp
  have hfs : (v.requestOpts j).fileSize = j.opts.fileSize := by
    unfold Cli.requestOpts
    rw [plain_sock v j hp, hj]
  have hip : ep.ip = v.cfg.endpoint.ip := by
    rcases hep with rfl | h
    · rfl
    · exact h.1
  have hport : ¬ (ep ≠ v.cfg.endpoint ∧ v.cfg.allowPortChange = false) := by
    rintro ⟨h1, h2⟩
    rcases hep with h | h
    · exact h1 h
    · rw [h.2] at h2; cases h2
  have hrecv : ∀ b, (v.initialSock j.opts).1.recv b = some b := by intro b; rw [plain_sock v j hp]; rfl
  obtain ⟨q1, q2⟩ := hq
  obtain ⟨o', h⟩ := confirms_accept (S := S) hopts.1 (by rw [hopts.2.2]; exact hb) (by rw [hopts.2.1]; exact hw) (by
      intro n hn
      rw [hfs] at hn
      rcases hs with h | h
      · rw [h] at hn; cases hn
      · rw [h] at hn; cases hn; decide) (keys := ⟨v.sessionPub, v.cfg.privateKey⟩) (used := q.used) (e := e) (by rw [q1]; exact q2) (by rw [q1]; exact hc)
    v.cfg.privateKey.isSome v.cfg.remoteKey
  have hacc : v.reply j.write (v.requestOpts j) q.used q.initial answer = .accept true o' none none := by
    unfold Cli.reply
    rw [ha]
    simp only [h]
  have hsz : ¬ o'.fileSize.getD 0 > v.cfg.maxFileSize := by
    rcases cli_size h hopts.1 with g | g
    · rw [g, hfs]
      rcases hs with k | k <;> rw [k] <;> simp
    · rw [g]
      cases ht : e .transferSize with
      | none => simp
      | some t =>
        simp only [Option.bind_some, hsize t ht, Option.getD_some]
        omega
  simp only [Cli.step, Cli.queryStep, fine, plain_put v j hp, hrecv]
  rw [List.take_of_length_le (by omega), if_neg (by rw [hip]; simp), if_neg hport, hacc]
  simp only [Cli.accepted, hj, accepted_cfg v j hp]
  have hem : ∀ n k p, (v.cfgOf ⟨none, .none, [], o'.payload⟩ o').emit n k p = some ⟨k, p.toBytes⟩ := by
    intro n k p; rfl
  simp only [hem, if_true, Option.map_some, not_true_eq_false, if_false, hsz]
  exact ⟨_, _, _, _, _, _, rfl⟩

/-! ### C84 -/

/-- **C84**, what arrives: this client downloads without encryption from a server which follows the RFCs and answers with an OACK of its
choice. In any schedule and with any losses, duplicates, delays and reorderings the client's file is at all times a prefix of the file in whole
blocks of the confirmed size, with at least the blocks which the server considers confirmed; if that is all of them, the client has the file; and
if the client reports success, it has the file and the number it reports is its size. -/
theorem c84_download (v : Cli S) (j : Job) (hp : Spec.NoEncryption j) (ok : Bool) (hj : j.task = .download ok) (hw : 1 ≤ j.opts.window)
    (ep : Ep) (answer file : Bytes) (ha : ∃ e, Packet.fromBytes answer = .ok (.optionalAck e)) (hlen : answer.length ≤ 512) (age : Option Nat)
    (hage : Distinct age (windowSize [answer]) (file.length / blockSize [answer] + 1)) (t : Nat) (es : List TakeEv) (hs : ∀ e ∈ es, e.sound) (X : Take)
    (hX : X = (Take.init v j t).run v j ep answer file age es) :
    (∃ n, X.confirmed ≤ n ∧ fileOf X.cli = file.take (n * blockSize [answer])) ∧
    (X.confirmed = file.length / blockSize [answer] + 1 → fileOf X.cli = file) ∧
    (∀ n a f, X.cli = .done (.ok (n, a)) f → f = file ∧ n = file.length) := by
  obtain ⟨seen, written, h⟩ := (TkInv.init v j t ep file answer).run hp hj hw ha hlen (age := age) hage es hs
  rw [← hX] at h
  have hall : written = nblocks file (blockSize [answer]) → file.take (bytesIn file (blockSize [answer]) written) = file := by
    intro hn
    have hb : 512 ≤ blockSize [answer] := h.big (by rw [hn]; exact nblocks_pos _ _)
    rw [hn, bytesIn_nblocks _ _ _ (by omega) (Nat.le_refl _)]
    exact List.take_of_length_le (l := file) (Nat.le_refl _)
  refine ⟨⟨written, h.conf, by rw [h.file, bytesIn_take]⟩, ?_, ?_⟩
  · intro hc
    rw [h.file]
    apply hall
    have h1 := h.conf
    have h2 := h.le
    have h3 := h.seen_le
    rw [hc] at h1
    exact Nat.le_antisymm (Nat.le_trans h2 h3) h1
  · intro n a f hc
    have hcli := h.cli
    rw [hc] at hcli
    obtain ⟨h1, h2⟩ := hcli
    obtain ⟨h2, h3⟩ := h2 n a rfl
    exact ⟨by rw [h1]; exact hall h2, h3⟩

/-- **C84**, completion: from every state of such a transfer in which the client has not given up, except the one of `c84_lost_ack`, it can be
completed on both sides even if everything under way is lost, if the OACK confirms nothing else than the client asks for and comes from an
address the client accepts, and the file is within the client's limit. What is missing: the client has accepted the OACK, but its acknowledgement
is lost. -/
theorem c84_completes_partial (v : Cli S) (j : Job) (hp : Spec.NoEncryption j) (hj : j.task = .download true)
    (hb : j.opts.blockSize ≤ 65535) (hw : 1 ≤ j.opts.window ∧ j.opts.window ≤ 65535) (hsz : j.opts.fileSize = none ∨ j.opts.fileSize = some 0)
    (ep : Ep) (hep : ep = v.cfg.endpoint ∨ ep.ip = v.cfg.endpoint.ip ∧ v.cfg.allowPortChange = true)
    (answer file : Bytes) (e : Exts) (ha : Packet.fromBytes answer = .ok (.optionalAck e)) (hlen : answer.length ≤ 512)
    (hfit : file.length ≤ v.cfg.maxFileSize) (hsize : ∀ t, e .transferSize = some t → parseUInt (2 ^ 64 - 1) t = some file.length) (age : Option Nat)
    (hage : Distinct age (windowSize [answer]) (file.length / blockSize [answer] + 1)) (t : Nat) (es : List TakeEv) (hs : ∀ e ∈ es, e.sound) (X : Take)
    (hX : X = (Take.init v j t).run v j ep answer file age es) (hgo : ∀ r f, X.cli ≠ .done r f)
    (hopts : ∀ q, X.cli = .query q → Confirms q.exts e)
    (hack : X.started = true ∨ ∃ q, X.cli = .query q) :
    ∃ fs a f, (∀ e ∈ fs, e.sound) ∧ (X.lost.run v j ep answer file age fs).confirmed = file.length / blockSize [answer] + 1 ∧
      (X.lost.run v j ep answer file age fs).cli = .done (.ok (file.length, a)) f ∧ f = file := by
  obtain ⟨seen, written, h⟩ := (TkInv.init v j t ep file answer).run hp hj hw.1 ⟨e, ha⟩ hlen (age := age) hage es hs
  rw [← hX] at h
  have hask : AskState v j X.cli := by
    rw [hX]
    exact AskState.takes es (X := Take.init v j t) ⟨rfl, .inl rfl⟩
  have hdone : ∀ (Y : Take) (seen written : Nat), TkInv v ep file answer Y seen written → Y.started = true →
      (∃ c room s since auth, Y.cli = .down c room ep s since auth) →
      ∃ fs a f, (∀ e ∈ fs, e.sound) ∧ (Y.run v j ep answer file age fs).confirmed = nblocks file (blockSize [answer]) ∧
        (Y.run v j ep answer file age fs).cli = .done (.ok (file.length, a)) f ∧ f = file := by
    rintro Y seen written hY hst ⟨c, room, s, since, auth, hc⟩
    obtain ⟨fs, a, f, k1, k2, k3⟩ := take_completes hp hj hw.1 ⟨e, ha⟩ hlen (age := age) hage hfit (nblocks file (blockSize [answer])) hY hst (by omega) _ _ _ _ _ hc
    obtain ⟨seen', written', h2⟩ := hY.run hp hj hw.1 ⟨e, ha⟩ hlen (age := age) hage fs k1
    refine ⟨fs, a, f, k1, k2, k3, ?_⟩
    have hcli := h2.cli
    rw [k3] at hcli
    obtain ⟨g1, g2⟩ := hcli
    obtain ⟨g2, -⟩ := g2 _ _ rfl
    have hbig : 512 ≤ blockSize [answer] := h2.big (by rw [g2]; exact nblocks_pos _ _)
    rw [g1, g2, bytesIn_nblocks _ _ _ (by omega) (Nat.le_refl _)]
    exact List.take_of_length_le (l := file) (Nat.le_refl _)
  cases hc : X.cli with
  | up => have := h.cli; rw [hc] at this; exact absurd this id
  | done r f => exact absurd hc (hgo r f)
  | down c room ep' s since auth =>
    have hst : X.started = true := by
      rcases hack with h | ⟨q, h⟩
      · exact h
      · rw [hc] at h; cases h
    have hcli := h.cli
    rw [hc] at hcli
    obtain ⟨rfl, -⟩ := hcli
    exact hdone X.lost seen written h.lost hst ⟨c, room, s, since, auth, hc⟩
  | query q =>
    have hcli := h.cli
    rw [hc] at hcli hask
    obtain ⟨hns, -, hroom⟩ := hcli
    have hip : ep.ip = v.cfg.endpoint.ip := by
      rcases hep with rfl | h
      · rfl
      · exact h.1
    obtain ⟨c, room, s, since, auth, req, hstep⟩ := take_accept hp hj hb hw.2 hsz hep hlen hask (hroom hip) ha (hopts q hc) hfit hsize
    have hc0 := (h.idle hns).1
    obtain ⟨X1, hX1⟩ : ∃ X1, X1 = X.lost.run v j ep answer file age [.oack, .client fine (some 0)] := ⟨_, rfl⟩
    have hY : X1 = { X.lost with cli := .down c room ep s since auth, toClient := [⟨answer, 0⟩]
                                 toPeer := ([(v.cfg.endpoint, req), (ep, ackPacket 0)].filter (·.1 = ep)).map (fun d => ⟨d.2, 0⟩) } := by
      rw [hX1]
      simp only [Take.run, List.foldl_cons, List.foldl_nil, Take.step, Take.lost, hns, Bool.false_eq_true, if_false, hc0]
      have hdl : deliver age [⟨answer, 0⟩] 0 (some 0) = some answer := deliver_zero age ⟨answer, 0⟩ []
      rw [hdl, hc]
      simp only [received]
      rw [hstep]
      simp only [List.append_nil]
    have hsd : ∀ e ∈ ([.oack, .client fine (some 0)] : List TakeEv), e.sound := by
      intro e he
      simp only [List.mem_cons, List.not_mem_nil, or_false] at he
      rcases he with rfl | rfl
      · exact trivial
      · exact .inl rfl
    obtain ⟨seen1, written1, h1⟩ := h.lost.run hp hj hw.1 ⟨e, ha⟩ hlen (age := age) hage _ hsd
    rw [← hX1] at h1
    have hmem : (⟨ackPacket 0, 0⟩ : Mail) ∈ X1.toPeer := by
      rw [hY]
      simp only [List.mem_map, List.mem_filter]
      exact ⟨(ep, ackPacket 0), ⟨by simp, by simp⟩, rfl⟩
    obtain ⟨k, hk⟩ := List.getElem?_of_mem hmem
    have hc1 : X1.confirmed = 0 := by rw [hY]; exact hc0
    have hs1 : X1.started = false := by rw [hY]; exact hns
    have hX2 : X1.run v j ep answer file age [.hear k] = { X1 with started := true } := by
      simp only [Take.run, List.foldl_cons, List.foldl_nil, Take.step]
      have hdl : deliver age X1.toPeer X1.confirmed (some k) = some (ackPacket 0) := by
        unfold deliver
        rw [Option.bind_some, hk, hc1]
        have := inTime_self age 0
        simp only [this, if_true]
      rw [hdl]
      simp only [hs1, Bool.false_eq_true, if_false, decide_true]
    obtain ⟨seen2, written2, h2⟩ := h1.run hp hj hw.1 ⟨e, ha⟩ hlen (age := age) hage [.hear k] (by
      intro e he
      rw [List.mem_singleton] at he
      subst he
      exact trivial)
    rw [hX2] at h2
    obtain ⟨fs, a, f, k1, k2, k3, k4⟩ := hdone _ seen2 written2 h2 rfl ⟨c, room, s, since, auth, by rw [hY]⟩
    refine ⟨[.oack, .client fine (some 0)] ++ ([.hear k] ++ fs), a, f, ?_, ?_, ?_, k4⟩
    · intro e he
      simp only [List.mem_append] at he
      rcases he with he | he | he
      · exact hsd e he
      · rw [List.mem_singleton] at he; subst he; exact trivial
      · exact k1 e he
    · rw [Take.run_append, ← hX1, Take.run_append, hX2]; exact k2
    · rw [Take.run_append, ← hX1, Take.run_append, hX2]; exact k3

/-- **C84**, why not from every state: if the client's acknowledgement of the OACK is lost, nothing helps. The client has accepted the OACK and
waits for the first block, the server waits for the acknowledgement and repeats the OACK (RFC 2347); the client disregards it, however often it
comes. The file stays empty and the transfer never succeeds. -/
theorem c84_lost_ack (v : Cli S) (j : Job) (hp : Spec.NoEncryption j) (ok : Bool) (hj : j.task = .download ok) (hw : 1 ≤ j.opts.window)
    (ep : Ep) (answer file : Bytes) (ha : ∃ e, Packet.fromBytes answer = .ok (.optionalAck e)) (hlen : answer.length ≤ 512) (age : Option Nat)
    (hage : Distinct age (windowSize [answer]) (file.length / blockSize [answer] + 1)) (t : Nat) (es : List TakeEv) (hs : ∀ e ∈ es, e.sound) (X : Take)
    (hX : X = (Take.init v j t).run v j ep answer file age es) (hdown : ∃ c room ep' s since auth, X.cli = .down c room ep' s since auth)
    (hns : X.started = false) (fs : List TakeEv) (hfs : ∀ e ∈ fs, e.sound) (Y : Take) (hY : Y = X.lost.run v j ep answer file age fs) :
    Y.toPeer = [] ∧ Y.started = false ∧ fileOf Y.cli = [] ∧ ∀ n a f, Y.cli ≠ .done (.ok (n, a)) f := by
  obtain ⟨seen, written, h⟩ := (TkInv.init v j t ep file answer).run hp hj hw ha hlen (age := age) hage es hs
  rw [← hX] at h
  have key : ∀ (fs : List TakeEv) (X : Take) (seen written : Nat), (∀ e ∈ fs, e.sound) → TkInv v ep file answer X seen written → X.toPeer = [] →
      X.started = false → (∀ q, X.cli ≠ .query q) → ∃ seen' written', TkInv v ep file answer (X.run v j ep answer file age fs) seen' written' ∧
      (X.run v j ep answer file age fs).toPeer = [] ∧ (X.run v j ep answer file age fs).started = false := by
    intro fs
    induction fs with
    | nil => intro X seen written _ h h1 h2 _; exact ⟨seen, written, h, h1, h2⟩
    | cons e r ih =>
      intro X seen written hsd h h1 h2 h3
      obtain ⟨seen', written', h'⟩ := h.step hp hj hw ha hlen (age := age) hage e (hsd e (by simp))
      refine ih _ seen' written' (fun e he => hsd e (by simp [he])) h' ?_ ?_ ?_
      · cases e with
        | client i k =>
          simp only [Take.step]
          have hnil : (v.step j X.cli (received ep (deliver age X.toClient X.confirmed k) i)).2 = [] := by
            have hcli := h.cli
            cases hc : X.cli with
            | query q => exact absurd hc (h3 q)
            | up => rw [hc] at hcli; exact absurd hcli id
            | done r f => rfl
            | down c room ep' s since auth =>
              rw [hc] at hcli
              obtain ⟨rfl, hmx, hd⟩ := hcli
              have hr : (received ep' (deliver age X.toClient X.confirmed k) i).recv = .error ∨
                  (received ep' (deliver age X.toClient X.confirmed k) i).recv = .wouldBlock ∨
                  ∃ x, (received ep' (deliver age X.toClient X.confirmed k) i).recv = .dgram ep' x.bytes ∧ SrvMail file answer X.started x ∧
                    x.stamp ≤ X.confirmed ∧ inTime age x.stamp X.confirmed = true := by
                rcases received_cases ep' (deliver age X.toClient X.confirmed k) i with g | g | ⟨b, g1, g2⟩
                · exact .inl g
                · exact .inr (.inl g)
                · obtain ⟨x, hx, rfl, hin⟩ := deliver_some g1
                  exact .inr (.inr ⟨x, g2, (h.toClient x hx).2, (h.toClient x hx).1, hin⟩)
              obtain ⟨_, _, -, -, -, -, -, -, g, -⟩ := down_iter (v := v) (j := j) hd hmx h.conf h.le h.room h.seen_le hage ha hlen since auth _
                (show (received ep' (deliver age X.toClient X.confirmed k) i).file = .all ∨ _ from hsd (.client i k) (by simp)) hr
              exact (g h2).2.2
          rw [hnil, h1]
          rfl
        | hear k =>
          simp only [Take.step]
          split
          · split <;> exact h1
          · exact h1
        | oack => simp only [Take.step]; split <;> exact h1
        | send n => simp only [Take.step]; split <;> exact h1
        | quit text => exact h1
      · cases e with
        | client i k => exact h2
        | hear k =>
          simp only [Take.step, h1]
          have : deliver age [] X.confirmed (some k) = none := rfl
          rw [this]
          exact h2
        | oack => simp only [Take.step]; split <;> exact h2
        | send n => simp only [Take.step]; split <;> exact h2
        | quit text => exact h2
      · cases e with
        | client i k =>
          simp only [Take.step]
          have hcli := h.cli
          cases hc : X.cli with
          | query q => exact absurd hc (h3 q)
          | up => rw [hc] at hcli; exact absurd hcli id
          | done r f => intro q hq; cases hq
          | down c room ep' s since auth =>
            intro q hq
            simp only [Cli.step, Cli.downStep] at hq
            repeat' split at hq
            all_goals cases hq
        | hear k =>
          simp only [Take.step]
          split
          · split <;> exact h3
          · exact h3
        | oack => simp only [Take.step]; split <;> exact h3
        | send n => simp only [Take.step]; split <;> exact h3
        | quit text => exact h3
  obtain ⟨c, room, ep', s, since, auth, hd⟩ := hdown
  obtain ⟨seen', written', k1, k2, k3⟩ := key fs X.lost seen written hfs h.lost rfl hns (by
    intro q hq
    have : X.cli = .query q := hq
    rw [hd] at this
    cases this)
  rw [← hY] at k1 k2 k3
  have hi := k1.idle k3
  have hw0 : written' = 0 := by have := k1.le; omega
  refine ⟨k2, k3, by rw [k1.file, hw0]; simp [bytesIn], ?_⟩
  intro n a f hc
  have hcli := k1.cli
  rw [hc] at hcli
  have := (hcli.2 n a rfl).1
  have := nblocks_pos file (blockSize [answer])
  omega

end Tftp.Rfc

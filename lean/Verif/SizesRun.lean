import Verif.Multi
import Verif.ErrorText
import Verif.EndOnce
/-
C28 over whole runs: no datagram which either server ever sends is longer than the agreed block size plus four bytes.
-/
namespace Tftp

/-! ### No reader returns more than a block -/

/-- Nothing in the buffers is longer than `bs`. -/
def Reader.Short (bs : Nat) : Reader → Prop
  | .single s => s.buffer.length ≤ bs
  | .multi s => s.bs ≤ bs ∧ ∀ b ∈ s.slots, b.data.length ≤ bs
  | .seek s => s.bs ≤ bs

theorem read_le {r : FileR} {n : Nat} {f : Bool} {d : Bytes} {r' : FileR} (h : r.read n f = some (d, r')) : d.length ≤ n := by
  unfold FileR.read at h
  split at h
  · cases h
  · simp only [Option.some.injEq, Prod.mk.injEq] at h
    rw [← h.1]
    simp
    omega

theorem short_new (k : Kind) (file : Bytes) (bs W : Nat) : (Reader.new k file bs W).Short bs := by
  cases k with
  | single => show (List.replicate bs (0 : UInt8)).length ≤ bs; simp
  | multi => exact ⟨Nat.le_refl _, fun b h => nomatch h⟩
  | seek => exact Nat.le_refl _

theorem freeData_le {bs n : Nat} {l : List Slot} (h1 : n ≤ bs) (h2 : ∀ b ∈ l, b.data.length ≤ bs) : (freeData n l).length ≤ bs := by
  unfold freeData
  split
  · rename_i b hb; exact h2 b (List.mem_of_find?_eq_some hb)
  · simpa using h1

theorem minSlot_mem {l : List Slot} {b : Slot} (h : minSlot l = some b) : b ∈ l := by
  cases l with
  | nil => cases h
  | cons a r =>
    simp only [minSlot, Option.some.injEq] at h
    have key : ∀ (l : List Slot) (m : Slot),
        l.foldl (fun m b => if (b.index.getD 0) < (m.index.getD 0) then b else m) m ∈ m :: l := by
      intro l
      induction l with
      | nil => intro m; simp
      | cons x l ih =>
        intro m
        simp only [List.foldl_cons]
        rcases List.mem_cons.mp (ih (if x.index.getD 0 < m.index.getD 0 then x else m)) with h | h
        · rw [h]; split <;> simp
        · exact List.mem_cons_of_mem _ (List.mem_cons_of_mem _ h)
    rw [← h]
    exact key r a

theorem short_next {bs : Nat} {r : Reader} (h : r.Short bs) (retry fail : Bool) (cap : Nat) :
    (r.next retry fail cap).1.Short bs ∧ ∀ b, (r.next retry fail cap).2 = .block b → b.data.length ≤ bs := by
  cases r with
  | single s =>
    simp only [Reader.next]
    unfold SingleR.next
    change s.buffer.length ≤ bs at h
    split
    · exact ⟨h, fun b hb => by cases hb⟩
    · split
      · split
        · split
          · exact ⟨h, fun b hb => by cases hb; exact h⟩
          · exact ⟨h, fun b hb => by cases hb⟩
        · exact ⟨h, fun b hb => by cases hb⟩
      · split
        · exact ⟨h, fun b hb => by cases hb⟩
        · rename_i d r' hd
          have hl : d.length ≤ bs := Nat.le_trans (read_le hd) h
          simp only
          split
          · refine ⟨?_, fun b hb => by cases hb; exact hl⟩
            simp only [Reader.Short]
            split <;> exact hl
          · exact ⟨hl, fun b hb => by cases hb⟩
  | multi s =>
    simp only [Reader.next]
    unfold MultiR.next
    obtain ⟨h1, h2⟩ := h
    split
    · exact ⟨⟨h1, h2⟩, fun b hb => by cases hb⟩
    · split
      · rename_i b hb
        have hm : b ∈ s.slots := by
          split at hb
          · exact (List.mem_filter.mp (minSlot_mem hb)).1
          · cases hb
        simp only
        split
        · exact ⟨⟨h1, h2⟩, fun b' hb' => by cases hb'; exact h2 b hm⟩
        · exact ⟨⟨h1, h2⟩, fun b hb => by cases hb⟩
      · simp only
        split
        · rename_i b hb
          split
          · exact ⟨⟨h1, h2⟩, fun b' hb' => by cases hb'; exact h2 b (List.mem_of_find?_eq_some hb)⟩
          · exact ⟨⟨h1, h2⟩, fun b hb => by cases hb⟩
        · split
          · exact ⟨⟨h1, h2⟩, fun b hb => by cases hb⟩
          · have hf := freeData_le h1 h2
            have hput : ∀ x : Slot, x.data.length ≤ bs → ∀ b ∈ putSlot x s.slots, b.data.length ≤ bs := by
              intro x hx b hb
              rcases mem_putSlot hb with rfl | hb
              · exact hx
              · exact h2 b hb
            split
            · exact ⟨⟨h1, hput _ hf⟩, fun b hb => by cases hb⟩
            · rename_i d r' hd
              have hl : d.length ≤ bs := Nat.le_trans (read_le hd) hf
              split
              · exact ⟨⟨h1, hput _ hl⟩, fun b hb => by cases hb; exact hl⟩
              · exact ⟨⟨h1, hput _ hl⟩, fun b hb => by cases hb⟩
  | seek s =>
    simp only [Reader.next]
    unfold SeekR.next
    change s.bs ≤ bs at h
    split
    · exact ⟨h, fun b hb => by cases hb⟩
    · simp only
      split
      · split
        · split
          · exact ⟨h, fun b hb => by cases hb⟩
          · rename_i d r' hd
            exact ⟨h, fun b hb => by cases hb; exact Nat.le_trans (read_le hd) h⟩
        · exact ⟨h, fun b hb => by cases hb⟩
      · split
        · split
          · split
            · exact ⟨h, fun b hb => by cases hb⟩
            · rename_i d r' hd
              exact ⟨h, fun b hb => by cases hb; exact Nat.le_trans (read_le hd) h⟩
          · exact ⟨h, fun b hb => by cases hb⟩
        · split
          · exact ⟨h, fun b hb => by cases hb⟩
          · generalize hs' : (if s.reader.pos ≠ s.lastOffset then { s with reader := s.reader.seek s.lastOffset } else s) = s'
            have hb' : s'.bs ≤ bs := by subst hs'; split <;> exact h
            split
            · split
              · exact ⟨hb', fun b hb => by cases hb⟩
              · rename_i d r' hd
                exact ⟨hb', fun b hb => by cases hb; exact Nat.le_trans (read_le hd) hb'⟩
            · exact ⟨hb', fun b hb => by cases hb⟩

theorem short_free {bs : Nat} {r : Reader} (h : r.Short bs) (n : Nat) : (r.free n).1.Short bs := by
  cases r with
  | single s =>
    simp only [Reader.free]
    unfold SingleR.free
    simp only
    split <;> exact h
  | multi s =>
    simp only [Reader.free]
    unfold MultiR.free
    obtain ⟨h1, h2⟩ := h
    simp only
    have hm : ∀ i, ∀ b ∈ s.slots.map (fun b => if freed i b then { b with index := none } else b), b.data.length ≤ bs := by
      intro i b hb
      obtain ⟨x, hx, rfl⟩ := List.mem_map.mp hb
      split <;> exact h2 x hx
    split <;> exact ⟨h1, hm _⟩
  | seek s =>
    simp only [Reader.free]
    unfold SeekR.free
    simp only
    split <;> exact h

/-! ### The server -/

/-- Data of at most a block, or any other packet of at most 516 bytes. -/
def Packet.Sized (n : Nat) (p : Packet) : Prop := (∃ b x, p = .data b x ∧ x.length ≤ n) ∨ ((∀ b x, p ≠ .data b x) ∧ p.toBytes.length ≤ 516)

theorem sized_error (n : Nat) (code : ErrorCode) : Packet.Sized n (.error code []) := .inr ⟨(fun _ _ h => by cases h), by simp [Packet.toBytes, be16]⟩

theorem sized_ack (n : Nat) (b : UInt16) : Packet.Sized n (.ack b) := .inr ⟨(fun _ _ h => by cases h), by simp [Packet.toBytes, be16]⟩

theorem sized_data {n : Nat} {b : UInt16} {x : Bytes} (h : x.length ≤ n) : Packet.Sized n (.data b x) := .inl ⟨b, x, rfl, h⟩

/-- What a connection sends fits the block size. -/
theorem enc_sized {S} (v : Srv S) (c : Conn) (hb : 512 ≤ c.opts.blockSize) {n : Nat} {p : Packet} {d : Bytes}
    (h : (v.transfer c).codec.enc n p.toBytes = some d) (hp : p.Sized c.opts.payload) : d.length ≤ c.opts.blockSize + 4 := by
  cases hc : c.enc with
  | none =>
    simp only [Srv.transfer, hc, Codec.plain, Option.some.injEq] at h
    subst h
    have : c.opts.payload ≤ c.opts.blockSize := by unfold Opts.payload; split <;> omega
    rcases hp with ⟨b, x, rfl, hx⟩ | ⟨-, h⟩
    · have : (Packet.data b x).toBytes.length = x.length + 4 := by simp [Packet.toBytes, be16]
      omega
    · omega
  | some A =>
    simp only [Srv.transfer, hc, Codec.level] at h
    split at h
    · rename_i x hx
      simp only [Option.some.injEq] at h
      subst h
      exact (c28_datagram_size A c.opts hb _ (v.nonce_length _) p x hp hx).1
    · cases h

/-- The connection's buffers hold no more than a block. -/
def Conn.Short (c : Conn) : Prop := match c.side with
  | .reader s => s.reader.Short c.opts.payload
  | .writer _ => True

theorem tick_sized {S} (v : Srv S) (c : Conn) (hb : 512 ≤ c.opts.blockSize) (hs : c.Short) (t : Nat) (io : SendIo) :
    (v.sendBlock c t io).1.Short ∧ ∀ d, (v.sendBlock c t io).2.1 = some d → d.length ≤ c.opts.blockSize + 4 := by
  unfold Srv.sendBlock
  split
  · exact ⟨hs, fun d h => by cases h⟩
  · rename_i s hc
    simp only
    generalize hc' : (if c.retryDue t then { c with mult := min 255 (c.mult + 2) } else c) = c'
    have ho : c'.opts = c.opts := by subst hc'; split <;> rfl
    have hsh : s.reader.Short c.opts.payload := by simpa only [Conn.Short, hc] using hs
    have hn := short_next hsh (c.retryDue t) io.fail c.opts.blockSize
    have hemit : ∀ {n : Nat} {tag : Option Nat} {p : Packet} {g : Dgram}, (v.transfer c').emit n tag p = some g → p.Sized c.opts.payload →
        g.bytes.length ≤ c.opts.blockSize + 4 := by
      intro n tag p g hg hp
      rw [← ho]
      exact enc_sized v c' (by rw [ho]; exact hb) (emit_enc hg) (by rw [ho]; exact hp)
    have hcap : (v.transfer c').cap = c.opts.blockSize := by show c'.opts.blockSize = _; rw [ho]
    have hst : ∀ g, (serverSendTick (v.transfer c') s (c.retryDue t) io.fail io.net io.nonce).2 = some g → g.bytes.length ≤ c.opts.blockSize + 4 := by
      intro g hg
      unfold serverSendTick at hg
      rw [hcap] at hg
      simp only at hg
      split at hg
      · cases hg
      · split at hg
        · exact hemit hg (sized_error _ _)
        · cases hg
      · split at hg
        · exact hemit hg (sized_error _ _)
        · cases hg
      · rename_i b hb
        split at hg
        · exact hemit hg (sized_data (hn.2 b hb))
        · cases hg
    have hsr : (serverSendTick (v.transfer c') s (c.retryDue t) io.fail io.net io.nonce).1.reader = (s.reader.next (c.retryDue t) io.fail c.opts.blockSize).1 := by
      unfold serverSendTick
      rw [hcap]
      simp only
      split <;> rfl
    refine ⟨?_, ?_⟩
    · show Reader.Short c'.opts.payload _
      rw [ho, hsr]; exact hn.1
    · intro d hd
      simp only [Option.map_eq_some_iff] at hd
      obtain ⟨g, h1, rfl⟩ := hd
      exact hst g h1

theorem handle_sized {S} (v : Srv S) (c : Conn) (hb : 512 ≤ c.opts.blockSize) (hs : c.Short) (t : Nat) (dg : Bytes) (io : RecvIo) :
    (v.handle c t dg io).1.Short ∧ ∀ d, (v.handle c t dg io).2 = some d → d.length ≤ c.opts.blockSize + 4 := by
  unfold Srv.handle
  cases hc : c.side with
  | reader s =>
    have hsh : s.reader.Short c.opts.payload := by simpa only [Conn.Short, hc] using hs
    have hf : (serverSendRecv (v.transfer c) s dg).reader.Short c.opts.payload := by
      unfold serverSendRecv
      split
      · exact hsh
      · split
        · simp only
          split <;> exact short_free hsh _
        · exact hsh
        · exact hsh
    simp only
    split
    · exact ⟨hf, fun d h => by cases h⟩
    · exact ⟨hf, fun d h => by cases h⟩
  | writer s =>
    refine ⟨trivial, ?_⟩
    intro d hd
    simp only [Option.map_eq_some_iff] at hd
    obtain ⟨g, h1, rfl⟩ := hd
    have hemit : ∀ {n : Nat} {tag : Option Nat} {p : Packet}, (v.transfer c).emit n tag p = some g → p.Sized c.opts.payload →
        g.bytes.length ≤ c.opts.blockSize + 4 := fun hg hp => enc_sized v c hb (emit_enc hg) hp
    unfold serverRecv at h1
    split at h1
    · cases h1
    · split at h1
      · simp only at h1
        split at h1
        · split at h1
          · exact hemit h1 (sized_error _ _)
          · cases h1
        · repeat' split at h1
          all_goals first
            | exact hemit h1 (sized_error _ _)
            | exact hemit h1 (sized_ack _ _)
            | (cases h1; done)
            | (simp only at h1; split at h1 <;> first | exact hemit h1 (sized_error _ _) | exact hemit h1 (sized_ack _ _) | cases h1)
      · cases h1
      · cases h1

theorem timeout_sized {S} (v : Srv S) (c : Conn) (hb : 512 ≤ c.opts.blockSize) (t : Nat) (io : RecvIo) :
    ∀ d, (v.timeout c t io).2 = some d → d.length ≤ c.opts.blockSize + 4 := by
  intro d hd
  unfold Srv.timeout at hd
  split at hd
  · cases hd
  · split at hd
    · cases hd
    · simp only at hd
      split at hd
      · exact enc_sized v c hb hd (sized_error _ _)
      · cases hd

/-! ### Answers to requests -/

/-- A refusal of a sealed request is not longer than the block size agreed so far, plus 4. -/
theorem replyText_sized {S} (v : Srv S) (hs : Option Aead) (o : Opts) (n : Nat) (code : ErrorCode) (text : Bytes) (hl : text.length ≤ 140)
    (hb : 512 ≤ o.blockSize) (ho : hs.isSome = true → o.level = .data ∨ o.level = .protocol ∨ o.level = .full) :
    ∀ d ∈ v.replyText hs o n code text, d.length ≤ o.blockSize + 4 := by
  intro d hd
  unfold Srv.replyText at hd
  split at hd
  · cases hd
  · split at hd
    · have := error_length code text
      simp only [List.mem_singleton] at hd
      subst hd
      omega
    · split at hd
      · rename_i x hx
        simp only [List.mem_singleton] at hd
        subst hd
        rw [sealPacket_length (v.nonce_length _) hx]
        unfold Opts.payload
        rcases ho rfl with h | h | h <;> rw [h] <;> simp only <;> omega
      · cases hd

theorem replyError_eq {S} (v : Srv S) (hs : Option Aead) (o : Opts) (n : Nat) (code : ErrorCode) : v.replyError hs o n code = v.replyText hs o n code [] := rfl

/-- **C28** for refusals: no answer from the main socket is longer than the largest block the server allows, plus 4 bytes. -/
theorem c28_refusals {S} (v : Srv S) (hb : 512 ≤ v.cfg.maxBlock) (t : Nat) (dg : Bytes) (io : NewIo) :
    (∀ d ∈ (v.newConn t dg io).replies, d.length ≤ v.cfg.maxBlock + 4) ∧ ∀ d ∈ v.answers dg io, d.length ≤ v.cfg.maxBlock + 4 := by
  have hq : ∀ name, (quoted name).length ≤ 100 := by
    intro name
    unfold quoted ensureSize
    by_cases hl : name.length > 100
    · rw [if_pos hl]
      split
      · rename_i x hx
        split at hx
        · cases hx; simp; omega
        · cases hx
      · simp
    · rw [if_neg hl]; simp only; omega
  have hst := newConn_steps v t dg io
  unfold Srv.answers
  cases hr : v.requestOf dg with
  | none =>
    rw [hr] at hst
    simp only at hst ⊢
    exact ⟨(by rw [hst.2]; intro d h; cases h), fun d h => by cases h⟩
  | some wr =>
    obtain ⟨write, r⟩ := wr
    rw [hr] at hst
    simp only at hst ⊢
    have h0 : ∀ d : Bytes, d.length ≤ 512 + 4 → d.length ≤ v.cfg.maxBlock + 4 := fun d h => by omega
    cases hs : srvParse v.cfg io.sessionPub r.exts { Opts.default with level := v.arrived dg } with
    | error x =>
      rw [hs] at hst
      simp only at hst ⊢
      have ht := parse_told v.cfg io.sessionPub r.exts (v.openRequest dg).1.isSome x hs
      have hrep : ∀ text : Bytes, text.length ≤ 140 → ∀ d ∈ v.replyText (v.openRequest dg).1 { Opts.default with level := v.arrived dg } io.nonce .illegalOperation text, d.length ≤ v.cfg.maxBlock + 4 := by
        intro text htx d hd
        refine h0 d (replyText_sized v _ _ _ _ text htx (by simp [Opts.default]) (fun h => .inr (.inr (arrived_full h))) d hd)
      refine ⟨?_, hrep _ (told_text ht).2⟩
      rw [hst.2, replyError_eq]
      exact hrep _ (by simp)
    | ok q =>
      rw [hs] at hst
      simp only at hst ⊢
      have hlim := parsed_limits hb (u := q.1) (o := q.2.1) (k := q.2.2) hs
      have hrep : ∀ text : Bytes, text.length ≤ 140 → ∀ d ∈ v.replyText (v.openRequest dg).1 q.2.1 io.nonce .diskFull text, d.length ≤ v.cfg.maxBlock + 4 := by
        intro text htx d hd
        have := replyText_sized v _ _ _ _ text htx hlim.1.1 (fun h => hlim.2 (arrived_full h)) d hd
        omega
      have hsmall : ∀ (code : ErrorCode) (text : Bytes), text.length ≤ 140 → ∀ d ∈ [(Packet.error code text).toBytes], d.length ≤ v.cfg.maxBlock + 4 := by
        intro code text htx d hd
        simp only [List.mem_singleton] at hd
        have := error_length code text
        subst hd
        omega
      by_cases hz : sizeAllowed v.cfg q.2.1 = true
      · simp only [hz, not_true_eq_false, ↓reduceIte] at hst ⊢
        cases hm : normalizeName r.fileName with
        | none =>
          rw [hm] at hst
          simp only at hst ⊢
          refine ⟨?_, hsmall _ _ ?_⟩
          · rw [hst.2]; exact hsmall _ _ (by simp)
          · have := hq r.fileName
            have : (ascii "Invalid file name received ").length = 27 := by decide +kernel
            simp only [List.length_append]; omega
        | some name =>
          rw [hm] at hst
          simp only at hst ⊢
          have h1 : (ascii "Unable to write file ").length = 21 := by decide +kernel
          have h2 : (ascii "Unable to read file ").length = 20 := by decide +kernel
          have h3 := hq r.fileName
          constructor
          · by_cases hc : (if write then io.openWrite name else (io.openRead name).isSome) = true
            · rw [if_pos hc] at hst
              rw [hst.1]; intro d h; cases h
            · rw [if_neg hc] at hst
              rw [hst.2, replyError_eq]; exact hrep _ (by simp)
          · split
            · split
              · intro d h; cases h
              · exact hrep _ (by simp only [List.length_append]; omega)
            · split
              · intro d h; cases h
              · exact hrep _ (by simp only [List.length_append]; omega)
      · simp only [hz, not_false_eq_true, ↓reduceIte, Bool.false_eq_true] at hst ⊢
        refine ⟨?_, hsmall _ _ ?_⟩
        · rw [hst.2]; exact hsmall _ _ (by simp)
        · have hsz := parsed_size (u := q.1) (o := q.2.1) (k := q.2.2) hs
          have h1 : (ascii "Invalid file size received ").length = 27 := by decide +kernel
          have h2 : q.2.1.fileSize.getD 0 < 10 ^ 20 := by
            rw [hsz]
            cases hx : Spec.requested r.exts .transferSize (2 ^ 64 - 1) with
            | none => simp
            | some n =>
              obtain ⟨_, -, ht⟩ := Option.bind_eq_some_iff.mp hx
              have := parseUInt_le _ _ _ ht
              simp only [Option.getD_some]; omega
          have h3 := decimal_length_le _ 20 h2 (by omega)
          simp only [List.length_append]
          exact Nat.le_trans (Nat.add_le_add (Nat.le_of_eq h1) h3) (by omega)

/-! ### Runs -/

/-- Specification: what the operating system supplies for a new connection is of the usual size: a session key of 32 bytes, file sizes
below 2^64. -/
structure Spec.Usual (io : NewIo) : Prop where
  key : io.sessionPub.length = 32
  size : ∀ name n file, io.openRead name = some (some n, file) → n < 2 ^ 64

/-- Specification: the limits of a server's configuration fit the options they limit. -/
structure Spec.Limits {S} (cfg : SrvCfg S) : Prop where
  block : 512 ≤ cfg.maxBlock ∧ cfg.maxBlock ≤ 65535
  window : 1 ≤ cfg.maxWindow ∧ cfg.maxWindow ≤ 65535

theorem newConn_sized {S} (v : Srv S) (hl : Spec.Limits v.cfg) (t : Nat) (dg : Bytes) (io : NewIo) (hio : Spec.Usual io) (c : Conn) (out : List Bytes)
    (h : (v.newConn t dg io).result = .ok (c, out)) :
    (512 ≤ c.opts.blockSize ∧ c.opts.blockSize ≤ v.cfg.maxBlock) ∧ c.Short ∧ ∀ d ∈ out, d.length ≤ c.opts.blockSize + 4 := by
  obtain ⟨write, r, used, keys, name, kind, -, hn, -, -, hside, -, -, -, -, hout⟩ := newConn_ok h
  have hlim := (c16_server_limits v.cfg hl.block.1 hl.window.1 _ _ _ _ _ _ _ hn).1
  refine ⟨hlim, ?_, ?_⟩
  · unfold Conn.Short
    split at hside
    · rw [hside.2.2]; trivial
    · obtain ⟨size, file, -, -, hs⟩ := hside
      rw [hs]
      exact short_new _ _ _ _
  · intro d hd
    have hsz : (Packet.optionalAck used).toBytes.length ≤ 311 := by
      refine c28_oack_size v.cfg hl.block.2 hl.window.2 _ hio.key _ _ kind ?_ _ _ _ hn
      intro s hs
      split at hside
      · rw [hside.2.1] at hs; cases hs
      · obtain ⟨size, file, h1, h2, -⟩ := hside
        rw [h2] at hs
        cases hs
        exact hio.size _ _ _ h1
    split at hout
    · split at hout
      · obtain ⟨x, h1, rfl⟩ := hout
        simp only [List.mem_singleton] at hd
        subst hd
        exact enc_sized v { c with enc := (v.openRequest dg).1 } hlim.1 h1 (sized_ack _ _)
      · subst hout; cases hd
    · obtain ⟨x, h1, rfl⟩ := hout
      simp only [List.mem_singleton] at hd
      subst hd
      exact enc_sized v { c with enc := (v.openRequest dg).1 } hlim.1 h1 (.inr ⟨(fun _ _ h => by cases h), by omega⟩)

/-- What holds of every connection. -/
def Srv.Steady {S} (v : Srv S) (x : Option Conn) : Prop :=
  ∀ c, x = some c → (512 ≤ c.opts.blockSize ∧ c.opts.blockSize ≤ v.cfg.maxBlock) ∧ c.Short

/-- Events of a connection which has been accepted. -/
def LifeEv.later : LifeEv → Prop
  | .start .. => False
  | _ => True

theorem later_sized {S} (v : Srv S) (stops : Bool) (c : Conn) (hc : v.Steady (some c)) (e : LifeEv) :
    v.Steady (v.lifeStep stops (some c) e).1 ∧ ∀ d ∈ (v.lifeStep stops (some c) e).2, d.length ≤ c.opts.blockSize + 4 := by
  obtain ⟨hb, hs⟩ := hc c rfl
  have ho : ∀ c', (v.lifeStep stops (some c) e).1 = some c' → c'.opts = c.opts := fun c' h => ((life_payload v stops c e).2 c' h).1
  have hk : ∀ y, (v.lifeStep stops (some c) e).1 = y → (∀ c', y = some c' → c'.Short) → v.Steady (v.lifeStep stops (some c) e).1 := by
    intro y hy hsh c' hc'
    rw [ho c' hc']
    exact ⟨hb, hsh c' (hy ▸ hc')⟩
  cases e with
  | start t dg io => exact ⟨hc, fun d h => nomatch h⟩
  | drop => exact ⟨(fun c' h => by cases h), fun d h => nomatch h⟩
  | tick t io =>
    have := tick_sized v c hb.1 hs t io
    refine ⟨hk _ rfl ?_, ?_⟩
    · intro c' hc'
      simp only [Srv.lifeStep] at hc'
      split at hc'
      · cases hc'; exact this.1
      · cases hc'; exact hs
    · intro d hd
      simp only [Srv.lifeStep] at hd
      split at hd
      · exact this.2 d (by simpa using hd)
      · cases hd
  | recv t dg io =>
    have := handle_sized v c hb.1 hs t dg io
    refine ⟨hk _ rfl ?_, ?_⟩
    · intro c' hc'
      simp only [Srv.lifeStep] at hc'
      split at hc'
      · cases hc'; exact hs
      · cases hc'; exact this.1
    · intro d hd
      simp only [Srv.lifeStep] at hd
      split at hd
      · cases hd
      · exact this.2 d (by simpa using hd)
  | check t io =>
    refine ⟨hk _ rfl ?_, ?_⟩
    · intro c' hc'
      simp only [Srv.lifeStep] at hc'
      split at hc'
      · cases hc'
      · cases hc'; exact hs
    · intro d hd
      exact timeout_sized v c hb.1 t io d (by simpa [Srv.lifeStep] using hd)

theorem none_later {S} (v : Srv S) (stops : Bool) (es : List LifeEv) (h : ∀ e ∈ es, e.later) : v.lifeRun stops none es = (none, []) := by
  induction es with
  | nil => rfl
  | cons e r ih =>
    have h1 : v.lifeStep stops none e = (none, []) := by
      have := h e (by simp)
      cases e <;> first | rfl | cases this
    simp only [Srv.lifeRun, h1, ih (fun e he => h e (by simp [he])), List.append_nil]

theorem laters_sized {S} (v : Srv S) (stops : Bool) (c : Conn) (hc : v.Steady (some c)) (es : List LifeEv) (h : ∀ e ∈ es, e.later) :
    v.Steady (v.lifeRun stops (some c) es).1 ∧ ∀ d ∈ (v.lifeRun stops (some c) es).2, d.length ≤ c.opts.blockSize + 4 := by
  induction es generalizing c with
  | nil => exact ⟨hc, fun d h => nomatch h⟩
  | cons e r ih =>
    have h1 := later_sized v stops c hc e
    have ho := (life_payload v stops c e).2
    simp only [Srv.lifeRun]
    cases hx : (v.lifeStep stops (some c) e).1 with
    | none =>
      rw [none_later v stops r (fun e he => h e (by simp [he]))]
      exact ⟨(fun _ h => by cases h), by simpa using h1.2⟩
    | some c' =>
      rw [hx] at h1
      have h2 := ih c' h1.1 (fun e he => h e (by simp [he]))
      rw [(ho c' hx).1] at h2
      refine ⟨h2.1, fun d hd => ?_⟩
      rcases List.mem_append.mp hd with hd | hd
      · exact h1.2 d hd
      · exact h2.2 d hd

/-- What a step may send to an address: before, after, the datagrams. -/
structure Spec.SizedStep (maxBlock : Nat) (before after : Option Conn) (out : List Bytes) : Prop where
  running : ∀ c, before = some c → ∀ d ∈ out, d.length ≤ c.opts.blockSize + 4
  accepted : ∀ c, before = none → after = some c → ∀ d ∈ out, d.length ≤ c.opts.blockSize + 4
  any : ∀ d ∈ out, d.length ≤ maxBlock + 4

theorem steps_sized {S} (v : Srv S) (hl : Spec.Limits v.cfg) (stops : Bool) (x : Option Conn) (hx : v.Steady x) (es : List LifeEv)
    (h : (∃ t dg io, es = [.start t dg io] ∧ Spec.Usual io) ∨ ∀ e ∈ es, e.later) :
    v.Steady (v.lifeRun stops x es).1 ∧ Spec.SizedStep v.cfg.maxBlock x (v.lifeRun stops x es).1 (v.lifeRun stops x es).2 := by
  rcases h with ⟨t, dg, io, rfl, hio⟩ | h
  · simp only [Srv.lifeRun, List.append_nil]
    cases x with
    | some c => exact ⟨hx, (fun _ _ d h => nomatch h), (fun _ _ _ d h => nomatch h), (fun d h => nomatch h)⟩
    | none =>
      simp only [Srv.lifeStep]
      cases hr : (v.newConn t dg io).result with
      | error y => exact ⟨(fun _ h => by cases h), (fun _ h => by cases h), (fun _ _ h => by cases h), (c28_refusals v hl.block.1 t dg io).1⟩
      | ok y =>
        obtain ⟨c, out⟩ := y
        have := newConn_sized v hl t dg io hio c out hr
        refine ⟨fun c' h => ?_, (fun _ h => by cases h), fun c' _ h => ?_, fun d hd => ?_⟩
        · cases h; exact ⟨this.1, this.2.1⟩
        · cases h; exact this.2.2
        · have := this.2.2 d hd; omega
  · cases x with
    | none =>
      rw [none_later v stops es h]
      exact ⟨(fun _ h => by cases h), (fun _ h => by cases h), (fun _ _ h => by cases h), fun d h => nomatch h⟩
    | some c =>
      have := laters_sized v stops c hx es h
      have hb := (hx c rfl).1
      refine ⟨this.1, fun c' h => ?_, (fun _ h => by cases h), fun d hd => ?_⟩
      · cases h; exact this.2
      · have := this.2 d hd; omega

/-- The operating system behaves as usual in all events of the single threaded server. -/
def Spec.UsualEv : SrvEv → Prop
  | .main _ _ _ io => Spec.Usual io
  | _ => True

/-- ... and of the multi threaded one. -/
def Spec.UsualMEv : MEv → Prop
  | .main _ _ _ io => Spec.Usual io
  | _ => True

theorem own_kind {a : Addr} {e : SrvEv} {es : List LifeEv} (h : Spec.Own a e es) (he : Spec.UsualEv e) :
    (∃ t dg io, es = [.start t dg io] ∧ Spec.Usual io) ∨ ∀ e ∈ es, e.later := by
  cases h with
  | purge t io => right; intro e h; simp only [List.mem_singleton] at h; subst h; trivial
  | round t io n => right; intro e h; have := List.eq_of_mem_replicate h; subst this; trivial
  | own t dg io => right; intro e h; simp only [List.mem_singleton] at h; subst h; trivial
  | other t b dg io => right; intro e h; cases h
  | main t dg io => exact .inl ⟨t, dg, io, rfl, he⟩
  | ignored t b dg io => right; intro e h; cases h

theorem mown_kind {a : Addr} {e : MEv} {es : List LifeEv} (h : Spec.MOwn a e es) (he : Spec.UsualMEv e) :
    (∃ t dg io, es = [.start t dg io] ∧ Spec.Usual io) ∨ ∀ e ∈ es, e.later := by
  cases h with
  | main t dg io => exact .inl ⟨t, dg, io, rfl, he⟩
  | ignored t b dg io => right; intro e h; cases h
  | idle => right; intro e h; cases h
  | broken => right; intro e h; cases h
  | thread e pc =>
    right
    intro x hx
    cases e <;> simp only [ThreadEv.life] at hx <;> first
      | (split at hx <;> first | (simp only [List.mem_singleton] at hx; subst hx; trivial) | cases hx)
      | cases hx
  | other b e => right; intro e h; cases h

/-- **C28** for the single threaded server, over whole runs: whatever has happened before, a datagram for an address is never longer than
the block size agreed with it plus 4 bytes: data, acknowledgements, errors and the acceptance; refusals are never longer than the largest
block the server allows plus 4. -/
theorem c28_single_thread {S} (v : Srv S) (hl : Spec.Limits v.cfg) (past : List SrvEv) (hp : ∀ e ∈ past, Spec.UsualEv e) (e : SrvEv)
    (he : Spec.UsualEv e) (a : Addr) :
    Spec.SizedStep v.cfg.maxBlock ((v.run ⟨[], 0⟩ past).conn a) ((v.run ⟨[], 0⟩ (past ++ [e])).conn a) (sentTo a (v.step (v.run ⟨[], 0⟩ past) e).2) := by
  have key : ∀ s : SrvSt, s.addrs.Nodup → v.Steady (s.conn a) → (v.run s past).addrs.Nodup ∧ v.Steady ((v.run s past).conn a) := by
    induction past with
    | nil => exact fun s h1 h2 => ⟨h1, h2⟩
    | cons f r ih =>
      intro s h1 h2
      obtain ⟨es, h3, h4⟩ := c50_single_thread_step v s h1 f a
      have := (steps_sized v hl false _ h2 es (own_kind h3 (hp f (by simp)))).1
      rw [h4] at this
      exact ih (fun e h => hp e (by simp [h])) _ (addrs_step v s h1 f) this
  obtain ⟨h1, h2⟩ := key ⟨[], 0⟩ List.nodup_nil (fun c h => by cases h)
  obtain ⟨es, h3, h4⟩ := c50_single_thread_step v _ h1 e a
  have := (steps_sized v hl false _ h2 es (own_kind h3 he)).2
  rw [h4] at this
  simpa only [Srv.run, List.foldl_append, List.foldl_cons, List.foldl_nil] using this

/-- **C28** for the multi threaded server. -/
theorem c28_multi_thread {S} (v : Srv S) (hl : Spec.Limits v.cfg) (past : List MEv) (hp : ∀ e ∈ past, Spec.UsualMEv e) (e : MEv)
    (he : Spec.UsualMEv e) (a : Addr) :
    Spec.SizedStep v.cfg.maxBlock ((v.mrun MSt.init past).1.conn a) ((v.mstep (v.mrun MSt.init past).1 e).1.conn a)
      (sentTo a (v.mstep (v.mrun MSt.init past).1 e).2) := by
  have key : ∀ s : MSt, s.Ok → v.Steady (s.conn a) → (v.mrun s past).1.Ok ∧ v.Steady ((v.mrun s past).1.conn a) := by
    induction past with
    | nil => exact fun s h1 h2 => ⟨h1, h2⟩
    | cons f r ih =>
      intro s h1 h2
      obtain ⟨es, h3, h4⟩ := c50_multi_thread_step v s h1 f a
      have := (steps_sized v hl true _ h2 es (mown_kind h3 (hp f (by simp)))).1
      rw [h4] at this
      exact ih (fun e h => hp e (by simp [h])) _ (mstep_ok v s f h1) this
  obtain ⟨h1, h2⟩ := key MSt.init ⟨List.nodup_nil, fun x hx => by cases hx⟩ (fun c h => by cases h)
  obtain ⟨es, h3, h4⟩ := c50_multi_thread_step v _ h1 e a
  have := (steps_sized v hl true _ h2 es (mown_kind h3 he)).2
  rw [h4] at this
  exact this

/-- **C28**: nothing the server ever sends is longer than the largest block it allows plus 4 bytes. -/
theorem c28_everything {S} (v : Srv S) (hl : Spec.Limits v.cfg) (evs : List SrvEv) (h : ∀ e ∈ evs, Spec.UsualEv e) :
    ∀ x ∈ v.sent ⟨[], 0⟩ evs, x.2.length ≤ v.cfg.maxBlock + 4 := by
  have key : ∀ (past rest : List SrvEv), past ++ rest = evs → ∀ x ∈ v.sent (v.run ⟨[], 0⟩ past) rest, x.2.length ≤ v.cfg.maxBlock + 4 := by
    intro past rest
    induction rest generalizing past with
    | nil => intro _ x hx; cases hx
    | cons e r ih =>
      intro heq x hx
      rcases List.mem_append.mp hx with hx | hx
      · refine (c28_single_thread v hl past (fun f hf => h f (by rw [← heq]; simp [hf])) e (h e (by rw [← heq]; simp)) x.1).any _ ?_
        exact List.mem_map.mpr ⟨x, List.mem_filter.mpr ⟨hx, by simp⟩, rfl⟩
      · refine ih (past ++ [e]) (by rw [← heq]; simp) x ?_
        simpa only [Srv.run, List.foldl_append, List.foldl_cons, List.foldl_nil] using hx
  exact key [] evs rfl

theorem c28_everything_multi {S} (v : Srv S) (hl : Spec.Limits v.cfg) (evs : List MEv) (h : ∀ e ∈ evs, Spec.UsualMEv e) :
    ∀ x ∈ (v.mrun MSt.init evs).2, x.2.length ≤ v.cfg.maxBlock + 4 := by
  have app : ∀ (s : MSt) (xs ys : List MEv), v.mrun s (xs ++ ys) = ((v.mrun (v.mrun s xs).1 ys).1, (v.mrun s xs).2 ++ (v.mrun (v.mrun s xs).1 ys).2) := by
    intro s xs ys
    induction xs generalizing s with
    | nil => simp [Srv.mrun]
    | cons e r ih => simp only [List.cons_append, Srv.mrun]; rw [ih]; simp
  have key : ∀ (past rest : List MEv), past ++ rest = evs → ∀ x ∈ (v.mrun (v.mrun MSt.init past).1 rest).2, x.2.length ≤ v.cfg.maxBlock + 4 := by
    intro past rest
    induction rest generalizing past with
    | nil => intro _ x hx; cases hx
    | cons e r ih =>
      intro heq x hx
      rcases List.mem_append.mp hx with hx | hx
      · refine (c28_multi_thread v hl past (fun f hf => h f (by rw [← heq]; simp [hf])) e (h e (by rw [← heq]; simp)) x.1).any _ ?_
        exact List.mem_map.mpr ⟨x, List.mem_filter.mpr ⟨hx, by simp⟩, rfl⟩
      · refine ih (past ++ [e]) (by rw [← heq]; simp) x ?_
        rw [app]
        exact hx
  exact key [] evs rfl

/-! ### The hypotheses are met, and the bound is attained -/

namespace Toy

def bigIo : NewIo := ⟨fun _ => some (some 600, List.replicate 600 7), fun _ => true, true, true, List.replicate 32 3, 0⟩

example : Spec.Limits srv.cfg := ⟨by decide, by decide⟩

example : Spec.Usual bigIo := ⟨by decide, fun name n file h => by cases h; decide⟩

/-- The connection for a file of 600 bytes. -/
def bigReader : Conn := ⟨{ Opts.default with fileSize := some 600 }, none, .reader ⟨Reader.new .single (List.replicate 600 7) 512 1, 0, false, false⟩, 0, 0, 1⟩

theorem big_accepted : srv.newConn 0 rrq bigIo = ⟨[], .ok (bigReader, [])⟩ :=
  newConn_read (v := srv) (t := 0) (dg := rrq) (b := rrq) (io := bigIo) (hs := none) (r := ⟨[97], Exts.empty⟩) (used := Exts.empty)
    (o := Opts.default) (keys := none) (name := [97]) (size := some 600) (file := List.replicate 600 7) rfl rfl rfl rfl normalizeName_a rfl rfl rfl

/-- A download of 600 bytes starts with a datagram of exactly 516 bytes, in both servers. -/
example : (srv.sent ⟨[], 0⟩ [.main 0 1 rrq bigIo, .round 1 sio]).map (fun x => (x.1, x.2.length)) = [(1, 516)] ∧
    ((srv.mrun MSt.init [.main 0 1 rrq bigIo, .thread 1 (.check 1 ⟨.all, true, 0⟩), .thread 1 (.send 1 (sio 1))]).2).map (fun x => (x.1, x.2.length)) = [(1, 516)] := by
  constructor
  · simp only [Srv.sent, Srv.step, big_accepted]
    decide +kernel
  · simp only [Srv.mrun, Srv.mstep, big_accepted]
    decide +kernel

end Toy

end Tftp

import Verif.SourceCli
import Verif.ToySealed
/-
C71: uploads which are encrypted while the file is read: the reader given to `send_file` is a `StreamReader` (std-binary/src/sender.rs:72-84,
std-binary/src/encryption_io.rs:38-56), which announces no size and cannot seek.
-/
namespace Tftp
open Spec

/-! ### The source -/

/-- src/readers/encrypted_stream_reader.rs:40-97: `read` and `seek` of `StreamReader`. `true`: the read of the inner file fails; otherwise it fills the
buffer, except at the end of the file. -/
def sealing (A : StreamAead) : Source StreamIn Bool where
  read s n fail := match s.read A n (if fail then none else some n) with
    | (s', .ok b) => (s', some b)
    | (s', .error _) => (s', none)
  tell s := (s, none)
  seek s _ := (s, false)

/-- The limits of the format for a file of less than 64 GB. -/
theorem fits_of {nonce file : Bytes} {len : Nat} (hn : nonce.length = 19) (hf : file.length < 2 ^ 36) (h1 : 37 ≤ len) (h2 : len ≤ 1425) :
    Upload.Fits ⟨nonce, file, len⟩ := by
  refine ⟨hn, ⟨h1, h2⟩, ?_⟩
  have h3 : (file.length + 21) / (len - 16) ≤ (file.length + 21) / 21 := Nat.div_le_div_left (by omega) (by omega)
  show (file.length + 21) / (len - 16) + 1 < streamMax
  unfold streamMax
  omega

theorem sealing_feeds {A : StreamAead} {nonce file : Bytes} {len : Nat} (h : Upload.Fits ⟨nonce, file, len⟩) :
    Feeds (sealing A) (StreamIn.new nonce file) id (Spec.sealed A nonce file len) len fun k s => s = readAt ⟨nonce, file, len⟩ k := by
  obtain ⟨b1, b2⟩ := sealed_blocks (A := A) h
  have hrange : ¬ (len < minStream ∨ len > 1425) := by
    have := h.len
    simp only at this
    unfold minStream
    omega
  have step : ∀ {k}, k < pieces file len → ∀ i, (sealing A).read (readAt ⟨nonce, file, len⟩ k) len i =
      if i then (readAt ⟨nonce, file, len⟩ k, none) else (readAt ⟨nonce, file, len⟩ (k + 1), some (sealedBlock A ⟨nonce, file, len⟩ k)) := by
    intro k hk i
    cases i with
    | false =>
      have := read_step (A := A) h hk
      simp only at this
      simp only [sealing, Bool.false_eq_true, ↓reduceIte, this]
    | true => simp only [sealing, ↓reduceIte, StreamIn.read, if_neg hrange]
  refine ⟨(readAt_zero ⟨nonce, file, len⟩).symm, ⟨?_⟩, ?_⟩
  · intro k s hs hk i _
    subst hs
    rw [b1] at hk
    rw [step hk i]
    cases i with
    | false => exact .inr ⟨by rw [b2 k hk]; rfl, rfl⟩
    | true => exact .inl ⟨rfl, rfl⟩
  · intro k s hs hk i
    subst hs
    rw [b1] at hk
    unfold Source.fails
    rw [step hk i]
    cases i <;> rfl

theorem sealing_noSeek (A : StreamAead) : NoSeek (sealing A) := ⟨fun _ _ => rfl, fun _ => rfl⟩

/-! ### Without `prefer_seek` nothing is read again -/

def Reader.seeks : Reader → Bool
  | .seek _ => true
  | _ => false

theorem next_seeks (r : Reader) (retry fail : Bool) (cap : Nat) : (r.next retry fail cap).1.seeks = r.seeks := by
  cases r <;> rfl

theorem free_seeks (r : Reader) (b : Nat) : (r.free b).1.seeks = r.seeks := by
  cases r <;> rfl

theorem tick_seeks (c : Cfg) (s : SendSt) (retry fail wb : Bool) (net : SendRes) (n : Nat) :
    (clientSendTick c s retry fail wb net n).1.reader.seeks = s.reader.seeks := by
  have := next_seeks s.reader retry fail c.cap
  unfold clientSendTick
  generalize s.reader.next retry fail c.cap = y at this
  obtain ⟨y1, y2⟩ := y
  simp only at this ⊢
  (repeat' split) <;> exact this

theorem recv_seeks (c : Cfg) (s : SendSt) (dg : Bytes) : (clientSendRecv c s dg).reader.seeks = s.reader.seeks := by
  unfold clientSendRecv
  cases c.codec.dec dg with
  | none => rfl
  | some b =>
  simp only
  cases Packet.fromBytes b with
  | error e => rfl
  | ok p =>
  cases p with
  | ack blk =>
      have := free_seeks s.reader blk.toNat
      simp only
      cases (s.reader.free blk.toNat).2 <;> exact this
  | _ => rfl

def CliSt.seeks : CliSt → Bool
  | .up _ _ _ s _ _ => s.reader.seeks
  | _ => false

theorem rereads_seeks (s : CliSt) (i : CliIn) (h : s.seeks = false) : s.rereads i = false := by
  unfold CliSt.rereads
  cases s with
  | up c room ep s since auth =>
    obtain ⟨r, _, _, _⟩ := s
    cases r with
    | seek r => cases h
    | _ => rfl
  | _ => rfl

theorem step_seeks {S} (v : Cli S) (hp : v.cfg.preferSeek = false) (j : Job) (s : CliSt) (h : s.seeks = false) (i : CliIn) : (v.step j s i).1.seeks = false := by
  cases s with
  | query q =>
    have hk : ∀ (w : Nat) f b, (Reader.new (v.kind w) f b w).seeks = false := by
      intro w f b
      unfold Cli.kind
      rw [hp]
      simp only [Bool.false_eq_true, ↓reduceIte]
      split <;> rfl
    simp only [Cli.step, Cli.queryStep]
    split
    · rfl
    · split
      · rfl
      · split <;> rfl
      · split
        · rfl
        · split
          · rfl
          · split
            · rfl
            · split
              · rfl
              · rfl
              · unfold Cli.accepted
                simp only
                split
                · split
                  · rfl
                  · exact hk _ _ _
                · split
                  · rfl
                  · split
                    · rfl
                    · split
                      · rfl
                      · split <;> rfl
  | up c room ep s since auth =>
    have h1 := tick_seeks c s i.retry i.fail i.wb i.net i.nonce
    have h2 : s.reader.seeks = false := h
    rw [h2] at h1
    simp only [Cli.step, Cli.upStep]
    split
    · rfl
    · split
      · rfl
      · split
        · rfl
        · exact h1
      · split
        · rfl
        · split
          · exact h1
          · split
            · rfl
            · split
              · rfl
              · show (clientSendRecv _ _ _).reader.seeks = false
                rw [recv_seeks]; exact h1
  | down c room ep s since auth =>
    simp only [Cli.step, Cli.downStep]
    (repeat' split) <;> rfl
  | done r f => rfl

theorem run_seeks {S} (v : Cli S) (hp : v.cfg.preferSeek = false) (j : Job) (s : CliSt) (h : s.seeks = false) (is : List CliIn) : (v.runFrom j s is).1.seeks = false := by
  induction is generalizing s with
  | nil => exact h
  | cons i is ih => exact ih _ (step_seeks v hp j s h i)

/-! ### C71 -/

/-- The run of a client which encrypts `file` while it uploads it; `i.fail`: reading the file fails. The size is not announced
(std-binary/src/encryption_io.rs:52-55). -/
def Cli.sealingRun {S} (v : Cli S) (A : StreamAead) (nonce file : Bytes) (name : Bytes) (o : Opts) (t : Nat) (is : List CliIn) : CliG StreamIn × List (Ep × Bytes) :=
  v.runG (sealing A) (StreamIn.new nonce file) ⟨.upload none [], name, o⟩ t (is.map fun i => (i, i.fail))

/-- The run of a client which uploads the encrypted file (without announcing its size). -/
def Spec.sealedRun {S} (v : Cli S) (A : StreamAead) (nonce file : Bytes) (len : Nat) (name : Bytes) (o : Opts) (t : Nat) (is : List CliIn) : CliSt × List (Ep × Bytes) :=
  v.run ⟨.upload none (Spec.sealed A nonce file len), name, o⟩ t is

theorem sealing_alike {S} (v : Cli S) (A : StreamAead) {nonce file : Bytes} (name : Bytes) {o : Opts} (t : Nat) (ho : o.blockSize ≤ 1425) (hn : nonce.length = 19)
    (hf : file.length < 2 ^ 36) (is : List CliIn) :
    ∃ len, (471 ≤ len ∧ len ≤ 1425) ∧ AlikeRuns v (sealing A) (StreamIn.new nonce file) len ⟨.upload none [], name, o⟩ ⟨.upload none (Spec.sealed A nonce file len), name, o⟩
      (.plain (.query (v.start ⟨.upload none [], name, o⟩ t))) (.query (v.start ⟨.upload none [], name, o⟩ t)) (is.map fun i => (i, i.fail)) := by
  obtain ⟨len, h1, h2⟩ := run_source v name o none [] (fun len => Spec.sealed A nonce file len) (fun len k s => s = readAt ⟨nonce, file, len⟩ k)
    (sealing_noSeek A) (fun len h1 h2 => sealing_feeds (fits_of hn hf (by omega) (by omega))) (v.start ⟨.upload none [], name, o⟩ t)
    (is.map fun i => (i, i.fail)) (by
      intro i hi
      obtain ⟨a, _, rfl⟩ := List.mem_map.1 hi
      rfl)
  exact ⟨len, ⟨h1.1, by omega⟩, h2⟩

theorem map_fst (is : List CliIn) : (is.map fun i => (i, i.fail)).map (·.1) = is := by
  rw [List.map_map]
  exact List.map_id is

/-- **C71**: a client which encrypts the file while it reads it sends, whatever the network and the file do, exactly the datagrams which a client would send
which uploads the encrypted file, cut for the block size `len` on which client and server agree, and has the same result. -/
theorem c71_encrypted_upload {S} (v : Cli S) (A : StreamAead) {nonce file : Bytes} (name : Bytes) {o : Opts} (t : Nat) (hp : v.cfg.preferSeek = false)
    (ho : o.blockSize ≤ 1425) (hn : nonce.length = 19) (hf : file.length < 2 ^ 36) (is : List CliIn) :
    ∃ len, (471 ≤ len ∧ len ≤ 1425) ∧
      (v.sealingRun A nonce file name o t is).2 = (Spec.sealedRun v A nonce file len name o t is).2 ∧
      (v.sealingRun A nonce file name o t is).1.result = (Spec.sealedRun v A nonce file len name o t is).1.outcome ∧
      ∀ k c room ep s since auth, (Spec.sealedRun v A nonce file len name o t (is.take k)).1 = .up c room ep s since auth → c.bs = len := by
  obtain ⟨len, h1, h2⟩ := sealing_alike v A name t ho hn hf is
  have e : v.start ⟨.upload none [], name, o⟩ t = v.start ⟨.upload none (Spec.sealed A nonce file len), name, o⟩ t := rfl
  have a := h2.same fun k hk => rereads_seeks _ _ (run_seeks v hp _ _ rfl _)
  have b := h2.block
  simp only [map_fst] at a b
  exact ⟨len, h1, a.1, a.2, b⟩

/-- **C71**, with `prefer_seek`: the same up to the first iteration `n` in which that other client would repeat a block. Then the encrypting client gives up:
it sends nothing more, and its result is an I/O error. -/
theorem c71_prefer_seek {S} (v : Cli S) (A : StreamAead) {nonce file : Bytes} (name : Bytes) {o : Opts} (t : Nat) (ho : o.blockSize ≤ 1425)
    (hn : nonce.length = 19) (hf : file.length < 2 ^ 36) (is : List CliIn) :
    ∃ len, (471 ≤ len ∧ len ≤ 1425) ∧
      ((∀ k (hk : k < is.length), (Spec.sealedRun v A nonce file len name o t (is.take k)).1.rereads is[k] = false) →
        (v.sealingRun A nonce file name o t is).2 = (Spec.sealedRun v A nonce file len name o t is).2 ∧
        (v.sealingRun A nonce file name o t is).1.result = (Spec.sealedRun v A nonce file len name o t is).1.outcome) ∧
      (∀ n (hn : n < is.length), (∀ k (hk : k < n), (Spec.sealedRun v A nonce file len name o t (is.take k)).1.rereads (is[k]'(by omega)) = false) →
        (Spec.sealedRun v A nonce file len name o t (is.take n)).1.rereads is[n] = true →
        (v.sealingRun A nonce file name o t is).2 = (Spec.sealedRun v A nonce file len name o t (is.take n)).2 ∧
        (v.sealingRun A nonce file name o t is).1.result = some (.error .io)) ∧
      ∀ k c room ep s since auth, (Spec.sealedRun v A nonce file len name o t (is.take k)).1 = .up c room ep s since auth → c.bs = len := by
  obtain ⟨len, h1, h2⟩ := sealing_alike v A name t ho hn hf is
  refine ⟨len, h1, fun hk => ?_, fun n hn hk hr => ?_, ?_⟩
  · have a := h2.same fun k hk' => by
      have := hk k (by simpa using hk')
      simp only [map_fst, List.getElem_map]
      exact this
    simp only [map_fst] at a
    exact a
  · have a := h2.stop n (by simpa using hn) (fun k hk' => by
      have := hk k hk'
      simp only [map_fst, List.getElem_map]
      exact this) (by
      simp only [map_fst, List.getElem_map]
      exact hr)
    simp only [map_fst] at a
    exact a
  · have b := h2.block
    simp only [map_fst] at b
    exact b

/-! ### A small client

Nothing here models code. -/

namespace Toy

set_option maxRecDepth 20000

def plainOpts : Opts := ⟨512, 80, some 0, .none, 1⟩

/-- The first data packet is lost. -/
def lossy : List CliIn := [hear 1 (.ack 0), { quiet 2 with retry := false }, quiet 3, hear 4 (.ack 1), hear 5 (.ack 2)]

def seekCli : Cli sig := { cli none with cfg := { (cli none).cfg with preferSeek := true } }

/-- The number of bytes sent by a client which has returned successfully. -/
def bytesSent : Option (Except CliErr (Nat × Option Bytes)) → Option Nat
  | some (.ok r) => some r.1
  | _ => none

/-- The client has returned an I/O error. -/
def broke : Option (Except CliErr (Nat × Option Bytes)) → Bool
  | some (.error .io) => true
  | _ => false

/-- The encrypted file has 653 bytes: it is uploaded, in spite of the loss; block 1 is sent three times. -/
example : (cli none).cfg.preferSeek = false ∧ plainOpts.blockSize ≤ 1425 ∧ nonce19.length = 19 ∧ content.length < 2 ^ 36 ∧
    bytesSent ((cli none).sealingRun mac nonce19 content [97] plainOpts 0 lossy).1.result = some 653 ∧
    ((cli none).sealingRun mac nonce19 content [97] plainOpts 0 lossy).2.map (fun d => d.2.take 6) =
      [[0, 2, 97, 0, 111, 99], [0, 3, 0, 1, 2, 0], [0, 3, 0, 1, 2, 0], [0, 3, 0, 1, 2, 0], [0, 3, 0, 2, 7, 7]] ∧
    ((cli none).sealingRun mac nonce19 content [97] plainOpts 0 lossy).2 = (Spec.sealedRun (cli none) mac nonce19 content 512 [97] plainOpts 0 lossy).2 := by
  decide +kernel

/-- With `prefer_seek` the loss of one packet ends the upload; a client which uploads the encrypted file has no difficulty. -/
theorem c71_prefer_seek_witness :
    seekCli.cfg.preferSeek = true ∧
    broke (seekCli.sealingRun mac nonce19 content [97] plainOpts 0 lossy).1.result = true ∧
    (seekCli.sealingRun mac nonce19 content [97] plainOpts 0 lossy).2.length = 2 ∧
    bytesSent (Spec.sealedRun seekCli mac nonce19 content 512 [97] plainOpts 0 lossy).1.outcome = some 653 ∧
    (Spec.sealedRun seekCli mac nonce19 content 512 [97] plainOpts 0 (lossy.take 2)).1.rereads (quiet 3) = true := by
  decide +kernel

end Toy
end Tftp

import Verif.Sources
import Verif.Sealed
import Verif.Client
import Verif.NegotiateProps
/-
C71: the client's upload over an arbitrary source (Sources.lean); uploads which are encrypted while they are read
(std-binary/src/sender.rs:72-97, std-binary/src/encryption_io.rs:38-56: the reader given to `send_file` is a `StreamReader`).
-/
namespace Tftp
open Spec

/-! ### The readers -/

/-- Same state, except for source and file. -/
def ReaderRel {σ} (file : Bytes) (bs : Nat) (At : Nat → σ → Prop) (g : ReaderG σ) (r : Reader) : Prop :=
  match g, r with
  | .single g, .single s => SingleRel file bs At g s
  | .multi g, .multi s => ∃ k, MultiRel file bs At k g s
  | .seek g, .seek s => SeekRel file bs At g s
  | _, _ => False

/-- The source. -/
def ReaderG.src {σ} : ReaderG σ → σ
  | .single s => s.src
  | .multi s => s.src
  | .seek s => s.src

/-- Would the next call of `next` seek in order to read a block again? Only the seeking reader does. -/
def ReaderG.again? {σ} (g : ReaderG σ) (retry : Bool) : Bool :=
  match g with
  | .seek s => s.again? retry
  | _ => false

theorem ReaderRel.init {σ} {file : Bytes} {bs : Nat} {At : Nat → σ → Prop} {src : σ} (h : At 0 src) (k : Kind) (W : Nat) :
    ReaderRel file bs At (ReaderG.new k src bs W) (Reader.new k file bs W) := by
  have hn := nblocks_pos file bs
  have hb : bytesIn file bs 0 = 0 := by simp [bytesIn]
  cases k with
  | single =>
    refine ⟨rfl, rfl, ⟨rfl, rfl⟩, rfl, rfl, ⟨rfl, ?_⟩, (fun _ => by simp [SingleR.new]), h, ?_, Nat.zero_le _⟩
    · simp only [SingleR.new, Bool.false_eq_true, false_iff]; omega
    · simp only [SingleR.new, hb]
  | multi =>
    refine ⟨0, rfl, rfl, ⟨rfl, rfl⟩, rfl, rfl, ⟨rfl, ?_⟩, (fun _ => by simp [MultiR.new]), h, ?_, Nat.zero_le _⟩
    · simp only [MultiR.new, Bool.false_eq_true, false_iff]; omega
    · simp only [MultiR.new, hb]
  | seek =>
    refine ⟨rfl, rfl, rfl, rfl, ⟨rfl, rfl⟩, ⟨rfl, ?_⟩, rfl, ⟨rfl, ?_⟩, h, rfl, Nat.zero_le _, Nat.le_refl _⟩
    · simp only [SeekR.new, hb]
    · simp only [SeekR.new, Option.isSome_none, Bool.false_eq_true, false_iff]; omega

theorem ReaderRel.next {σ ι} {S : Source σ ι} {file : Bytes} {bs : Nat} {At : Nat → σ → Prop} {Ok : σ → ι → Prop} (hD : Delivers S file bs At Ok) (hN : NoSeek S)
    (hbs : 0 < bs) {g : ReaderG σ} {r : Reader} (h : ReaderRel file bs At g r) (retry : Bool) (i : ι) (hok : Ok g.src i) (cap : Nat)
    (hcap : bs ≤ cap) :
    (g.next S retry i cap).2 = (r.next retry (S.fails g.src bs i || g.again? retry) cap).2 ∧
    ReaderRel file bs At (g.next S retry i cap).1 (r.next retry (S.fails g.src bs i || g.again? retry) cap).1 ∧
    (g.again? retry = true → (g.next S retry i cap).2 = .ioErr) := by
  cases g with
  | single g =>
    cases r with
    | single s =>
      have := SingleRel.next hD hbs h retry i hok cap hcap
      simp only [ReaderG.next, Reader.next, ReaderG.src, ReaderG.again?, Bool.or_false]
      exact ⟨this.1, this.2, (fun h => by cases h)⟩
    | multi s => exact h.elim
    | seek s => exact h.elim
  | multi g =>
    cases r with
    | single s => exact h.elim
    | multi s =>
      obtain ⟨k, h⟩ := h
      have := MultiRel.next hD hbs h retry i hok cap hcap
      simp only [ReaderG.next, Reader.next, ReaderG.src, ReaderG.again?, Bool.or_false]
      exact ⟨this.1, this.2, (fun h => by cases h)⟩
    | seek s => exact h.elim
  | seek g =>
    cases r with
    | single s => exact h.elim
    | multi s => exact h.elim
    | seek s => exact SeekRel.next hD hN hbs h retry i hok cap hcap

theorem ReaderRel.free {σ} {file : Bytes} {bs : Nat} {At : Nat → σ → Prop} {g : ReaderG σ} {r : Reader} (h : ReaderRel file bs At g r) (blk : Nat) :
    (g.free blk).2 = (r.free blk).2 ∧ ReaderRel file bs At (g.free blk).1 (r.free blk).1 := by
  cases g with
  | single g =>
    cases r with
    | single s =>
      have := SingleRel.free h blk
      exact ⟨congrArg some this.1, this.2⟩
    | multi s => exact h.elim
    | seek s => exact h.elim
  | multi g =>
    cases r with
    | single s => exact h.elim
    | multi s =>
      obtain ⟨k, h⟩ := h
      have := MultiRel.free h blk
      exact ⟨congrArg some this.1, k, this.2⟩
    | seek s => exact h.elim
  | seek g =>
    cases r with
    | single s => exact h.elim
    | multi s => exact h.elim
    | seek s => exact SeekRel.free h blk

theorem ReaderRel.finished {σ} {file : Bytes} {bs : Nat} {At : Nat → σ → Prop} {g : ReaderG σ} {r : Reader} (h : ReaderRel file bs At g r) :
    g.isFinished = r.isFinished := by
  cases g with
  | single g =>
    cases r with
    | single s => simp only [ReaderG.isFinished, Reader.isFinished, SingleG.isFinished, SingleR.isFinished, h.last, h.fin.1]
    | multi s => exact h.elim
    | seek s => exact h.elim
  | multi g =>
    cases r with
    | single s => exact h.elim
    | multi s =>
      obtain ⟨k, h⟩ := h
      simp only [ReaderG.isFinished, Reader.isFinished, MultiG.isFinished, MultiR.isFinished, MultiG.live, MultiR.live, h.slots, h.fin.1]
    | seek s => exact h.elim
  | seek g =>
    cases r with
    | single s => exact h.elim
    | multi s => exact h.elim
    | seek s => simp only [ReaderG.isFinished, Reader.isFinished, SeekG.isFinished, SeekR.isFinished, h.blockRead, h.confirmed, h.fin.1]

/-- Would the next call of `next` read a block again? Like `ReaderG.again?`. -/
def Reader.again? (r : Reader) (retry : Bool) : Bool :=
  match r with
  | .seek s => !s.isFinished && (retry && decide (s.blockRead > s.confirmed) || decide (s.blockRead ≥ s.current + 1))
  | _ => false

theorem ReaderRel.again {σ} {file : Bytes} {bs : Nat} {At : Nat → σ → Prop} {g : ReaderG σ} {r : Reader} (h : ReaderRel file bs At g r) (retry : Bool) :
    g.again? retry = r.again? retry := by
  have hf := h.finished
  cases g with
  | single g =>
    cases r with
    | single s => rfl
    | multi s => exact h.elim
    | seek s => exact h.elim
  | multi g =>
    cases r with
    | single s => exact h.elim
    | multi s => rfl
    | seek s => exact h.elim
  | seek g =>
    cases r with
    | single s => exact h.elim
    | multi s => exact h.elim
    | seek s =>
      simp only [ReaderG.isFinished, Reader.isFinished] at hf
      simp only [ReaderG.again?, Reader.again?, SeekG.again?, hf, h.blockRead, h.confirmed, h.current]

/-- The number of blocks read so far; when the file has been read, and no block is repeated, the file is not touched. -/
theorem ReaderRel.over {σ} {file : Bytes} {bs : Nat} {At : Nat → σ → Prop} {g : ReaderG σ} {r : Reader} (h : ReaderRel file bs At g r) :
    ∃ k, k ≤ nblocks file bs ∧ At k g.src ∧
      (k = nblocks file bs → ∀ retry, r.again? retry = false → ∀ f f' cap, r.next retry f cap = r.next retry f' cap) := by
  cases g with
  | single g =>
    cases r with
    | single s =>
      refine ⟨_, h.le, h.src, fun hk retry _ f f' cap => ?_⟩
      have hfin := h.fin.2.2 hk
      simp only [Reader.next, SingleR.next, SingleR.isFinished, hfin, Bool.and_true]
      cases s.last <;> rfl
    | multi s => exact h.elim
    | seek s => exact h.elim
  | multi g =>
    cases r with
    | single s => exact h.elim
    | multi s =>
      obtain ⟨k, h⟩ := h
      refine ⟨k, h.le, h.src, fun hk retry _ f f' cap => ?_⟩
      have hfin := h.fin.2.2 hk
      simp only [Reader.next, MultiR.next, hfin, Bool.true_or, ↓reduceIte]
    | seek s => exact h.elim
  | seek g =>
    cases r with
    | single s => exact h.elim
    | multi s => exact h.elim
    | seek s =>
      refine ⟨_, h.le, h.src, fun hk retry ha f f' cap => ?_⟩
      have hfin := h.fin.2.2 hk
      simp only [Reader.again?] at ha
      simp only [Reader.next, SeekR.next]
      by_cases hd : s.isFinished = true
      · simp only [hd, ↓reduceIte]
      · simp only [hd, Bool.not_false, Bool.true_and, Bool.or_eq_false_iff, decide_eq_false_iff_not] at ha
        simp only [hd, Bool.false_eq_true, ↓reduceIte, ha.1, ha.2, hfin, Bool.true_or]

/-! ### The client -/

/-- The state of the sending loop (src/client/sender.rs:145-158), like `SendSt`. -/
structure SendG (σ : Type) where
  reader : ReaderG σ
  total : Nat
  finished : Bool
  failed : Bool

/-- One round of the sending part of the loop: src/client/sender.rs:200-246. `x`: what happens to the source; `wb`: its error is `WouldBlock`.
(An error of `seek` never is; the only seek here is the one which precedes the repetition of a block.) -/
def clientTickG {σ ι} (S : Source σ ι) (c : Cfg) (s : SendG σ) (retry : Bool) (x : ι) (wb : Bool) (net : SendRes) (nonce : Nat) :
    SendG σ × Option Dgram :=
  let wb := wb && !s.reader.again? retry
  let (r, o) := s.reader.next S retry x c.cap
  let s := { s with reader := r }
  match o with
  | .none => (s, none)
  | .ioErr => if wb then (s, none) else ({ s with failed := true }, none)
  | .badBuffer => ({ s with failed := true }, none)
  | .block b =>
    match c.emit nonce (some b.index) (dataPacket b), net with
    | some d, .sent => (s, some d)
    | some _, .wouldBlock => (s, none)
    | _, _ => ({ s with failed := true }, none)

/-- The receiving part: src/client/sender.rs:263-338. -/
def clientRecvG {σ} (c : Cfg) (s : SendG σ) (dg : Bytes) : SendG σ :=
  match c.codec.dec dg with
  | none => { s with failed := true }
  | some b =>
    match Packet.fromBytes b with
    | .ok (.ack blk) =>
      let (r, n) := s.reader.free blk.toNat
      match n with
      | none => { s with reader := r, failed := true }
      | some n => { s with reader := r, total := s.total + n, finished := r.isFinished }
    | .ok (.error _ _) => { s with failed := true }
    | _ => s

/-- A client which uploads from a source: before the upload (and after it) its state is that of an ordinary client. -/
inductive CliG (σ : Type)
  | plain (s : CliSt)
  | up (c : Cfg) (room : Nat) (ep : Ep) (s : SendG σ) (since : Nat) (auth : Option Bytes)

/-- One iteration of the sending loop: src/client/sender.rs:184-339. -/
def Cli.upStepG {S σ ι} (v : Cli S) (T : Source σ ι) (c : Cfg) (room : Nat) (ep : Ep) (s : SendG σ) (since : Nat) (auth : Option Bytes) (i : CliIn)
    (x : ι) : CliG σ × List (Ep × Bytes) :=
  let (s, d) := clientTickG T c s i.retry x i.wb i.net i.nonce
  let out := (d.map (·.bytes)).toList.map (ep, ·)
  if s.failed then (.plain (.done (.error .io) []), out)
  else match i.recv with
    | .error => (.plain (.done (.error .io) []), out)
    | .wouldBlock =>
      if i.t - since > v.cfg.requestTimeout then (.plain (.done (.error .timeout) []), out) else (.up c room ep s since auth, out)
    | .dgram from' dg =>
      let dg := dg.take room
      if (c.codec.dec dg).isNone then (.plain (.done (.error .io) []), out)
      else if from' ≠ ep then (.up c room ep s since auth, out)
      else
        let s := clientRecvG c s dg
        if s.failed then (.plain (.done (.error .io) []), out)
        else if s.finished then (.plain (.done (.ok (s.total, auth)) []), out)
        else (.up c room ep s (if c.isAck dg then i.t else since) auth, out)

/-- One iteration. The source is `src` when the upload begins. -/
def Cli.stepG {S σ ι} (v : Cli S) (T : Source σ ι) (src : σ) (j : Job) : CliG σ → CliIn → ι → CliG σ × List (Ep × Bytes)
  | .plain s, i, _ => match v.step j s i with
    | (.up c room ep _ since auth, out) => (.up c room ep ⟨ReaderG.new (v.kind c.W) src c.bs c.W, 0, false, false⟩ since auth, out)
    | (s, out) => (.plain s, out)
  | .up c room ep s since auth, i, x => v.upStepG T c room ep s since auth i x

/-- Some iterations: the state, and everything sent. -/
def Cli.runFromG {S σ ι} (v : Cli S) (T : Source σ ι) (src : σ) (j : Job) (s : CliG σ) : List (CliIn × ι) → CliG σ × List (Ep × Bytes)
  | [] => (s, [])
  | i :: is =>
    let (s', out) := v.stepG T src j s i.1 i.2
    let (s'', out') := v.runFromG T src j s' is
    (s'', out ++ out')

/-- From the start at time `t`. -/
def Cli.runG {S σ ι} (v : Cli S) (T : Source σ ι) (src : σ) (j : Job) (t : Nat) (is : List (CliIn × ι)) : CliG σ × List (Ep × Bytes) :=
  v.runFromG T src j (.plain (.query (v.start j t))) is

/-- The result, if the client has returned. -/
def CliG.result {σ} : CliG σ → Option (Except CliErr (Nat × Option Bytes))
  | .plain (.done r _) => some r
  | _ => none

def CliSt.outcome : CliSt → Option (Except CliErr (Nat × Option Bytes))
  | .done r _ => some r
  | _ => none

/-! ### Simulation -/

/-- A read which does not fail gives no error; and whether a read fails makes no difference if there is none. -/
theorem next_fail (r : Reader) (retry : Bool) (cap : Nat) :
    (r.next retry false cap).2 ≠ .ioErr ∧ ((r.next retry true cap).2 = .ioErr ∨ r.next retry true cap = r.next retry false cap) := by
  cases r with
  | single s =>
    simp only [Reader.next, SingleR.next, FileR.read, Bool.false_eq_true, if_false, if_true]
    by_cases h1 : s.isFinished = true
    · simp only [if_pos h1]; exact ⟨(fun h => by cases h), .inr trivial⟩
    · simp only [if_neg h1]
      by_cases h2 : s.last.isSome = true
      · simp only [if_pos h2]
        refine ⟨?_, .inr trivial⟩
        (repeat' split) <;> exact fun h => by cases h
      · simp only [if_neg h2]
        refine ⟨?_, .inl trivial⟩
        (repeat' split) <;> exact fun h => by cases h
  | multi s =>
    simp only [Reader.next, MultiR.next, FileR.read, Bool.false_eq_true, if_false, if_true]
    by_cases h1 : s.isFinished = true
    · simp only [if_pos h1]; exact ⟨(fun h => by cases h), .inr trivial⟩
    · simp only [if_neg h1]
      cases (if retry = true then minSlot s.live else none) with
      | some b =>
        refine ⟨?_, .inr rfl⟩
        (repeat' split) <;> exact fun h => by cases h
      | none =>
        simp only
        cases s.slots.find? fun b => b.index == some (s.blockRead + 1) with
        | some b =>
          refine ⟨?_, .inr rfl⟩
          (repeat' split) <;> exact fun h => by cases h
        | none =>
          simp only
          by_cases h2 : (s.finished || decide (s.live.length ≥ s.max)) = true
          · simp only [if_pos h2]; exact ⟨(fun h => by cases h), .inr trivial⟩
          · simp only [if_neg h2]
            refine ⟨?_, .inl trivial⟩
            (repeat' split) <;> exact fun h => by cases h
  | seek s =>
    simp only [Reader.next, SeekR.next, FileR.read, Bool.false_eq_true, if_false, if_true]
    by_cases h1 : s.isFinished = true
    · simp only [if_pos h1]; exact ⟨(fun h => by cases h), .inr trivial⟩
    · simp only [if_neg h1]
      by_cases hb : s.bs ≤ cap
      · by_cases h2 : (retry && decide (s.blockRead > s.confirmed)) = true
        · simp only [if_pos h2, if_pos hb]
          exact ⟨(fun h => by cases h), .inl trivial⟩
        · simp only [if_neg h2]
          by_cases h3 : s.blockRead ≥ s.current + 1
          · simp only [if_pos h3, if_pos hb]
            exact ⟨(fun h => by cases h), .inl trivial⟩
          · simp only [if_neg h3]
            by_cases h4 : (s.finishedSize.isSome || decide (s.blockRead - s.confirmed ≥ s.max)) = true
            · simp only [if_pos h4]; exact ⟨(fun h => by cases h), .inr trivial⟩
            · simp only [if_neg h4]
              by_cases h5 : s.reader.pos ≠ s.lastOffset
              · simp only [if_pos h5, if_pos hb]; exact ⟨(fun h => by cases h), .inl trivial⟩
              · simp only [if_neg h5, if_pos hb]; exact ⟨(fun h => by cases h), .inl trivial⟩
      · by_cases h2 : (retry && decide (s.blockRead > s.confirmed)) = true
        · simp only [if_pos h2, if_neg hb]
          exact ⟨(fun h => by cases h), .inr trivial⟩
        · simp only [if_neg h2]
          by_cases h3 : s.blockRead ≥ s.current + 1
          · simp only [if_pos h3, if_neg hb]
            exact ⟨(fun h => by cases h), .inr trivial⟩
          · simp only [if_neg h3]
            by_cases h4 : (s.finishedSize.isSome || decide (s.blockRead - s.confirmed ≥ s.max)) = true
            · simp only [if_pos h4]; exact ⟨(fun h => by cases h), .inr trivial⟩
            · simp only [if_neg h4]
              by_cases h5 : s.reader.pos ≠ s.lastOffset
              · simp only [if_pos h5, if_neg hb]; exact ⟨(fun h => by cases h), .inr trivial⟩
              · simp only [if_neg h5, if_neg hb]; exact ⟨(fun h => by cases h), .inr trivial⟩

/-- The file fails exactly if the reader reports it. -/
theorem next_canon (r : Reader) (retry f : Bool) (cap : Nat) :
    r.next retry f cap = r.next retry (decide ((r.next retry f cap).2 = .ioErr)) cap := by
  obtain ⟨h1, h2⟩ := next_fail r retry cap
  cases f with
  | false => rw [decide_eq_false h1]
  | true =>
    rcases h2 with h2 | h2
    · rw [decide_eq_true h2]
    · by_cases h3 : (r.next retry true cap).2 = .ioErr
      · rw [decide_eq_true h3]
      · rw [decide_eq_false h3, h2]

/-- A reader over the source behaves like one over a regular file. `Ok`: what may happen in a call. -/
structure Simulates {σ ι} (T : Source σ ι) (bs : Nat) (Ok : σ → ι → Prop) (R : ReaderG σ → Reader → Prop) : Prop where
  next : ∀ {g r}, R g r → ∀ retry x, Ok g.src x → ∀ cap, bs ≤ cap →
    ∃ f, (g.next T retry x cap).2 = (r.next retry f cap).2 ∧ R (g.next T retry x cap).1 (r.next retry f cap).1
  free : ∀ {g r}, R g r → ∀ b, (g.free b).2 = (r.free b).2 ∧ R (g.free b).1 (r.free b).1
  finished : ∀ {g r}, R g r → g.isFinished = r.isFinished

theorem ReaderRel.simulates {σ ι} {T : Source σ ι} {file : Bytes} {bs : Nat} {At : Nat → σ → Prop} {Ok : σ → ι → Prop} (hD : Delivers T file bs At Ok)
    (hN : NoSeek T) (hbs : 0 < bs) : Simulates T bs Ok (ReaderRel file bs At) where
  next h retry x hok cap hcap := by
    have := ReaderRel.next hD hN hbs h retry x hok cap hcap
    exact ⟨_, this.1, this.2.1⟩
  free h b := h.free b
  finished h := h.finished

structure SendRel {σ} (R : ReaderG σ → Reader → Prop) (g : SendG σ) (s : SendSt) : Prop where
  reader : R g.reader s.reader
  total : g.total = s.total
  finished : g.finished = s.finished
  failed : g.failed = s.failed

/-- The source's part in the input of an ordinary client: does the file fail? (A seek which fails does not fail with `WouldBlock`.) -/
def Source.input {σ ι} (T : Source σ ι) (cap : Nat) (g : ReaderG σ) (i : CliIn) (x : ι) : CliIn :=
  { i with fail := decide ((g.next T i.retry x cap).2 = .ioErr), wb := i.wb && !g.again? i.retry }

theorem SendRel.tick {σ ι} {T : Source σ ι} {R : ReaderG σ → Reader → Prop} {Ok : σ → ι → Prop} {c : Cfg} (hS : Simulates T c.bs Ok R) (hcap : c.bs ≤ c.cap)
    {g : SendG σ} {s : SendSt} (h : SendRel R g s) (i : CliIn) (x : ι) (hok : Ok g.reader.src x) :
    (clientTickG T c g i.retry x i.wb i.net i.nonce).2 =
      (clientSendTick c s i.retry (T.input c.cap g.reader i x).fail (T.input c.cap g.reader i x).wb i.net i.nonce).2 ∧
    SendRel R (clientTickG T c g i.retry x i.wb i.net i.nonce).1
      (clientSendTick c s i.retry (T.input c.cap g.reader i x).fail (T.input c.cap g.reader i x).wb i.net i.nonce).1 := by
  obtain ⟨f, n1, n2⟩ := hS.next h.reader i.retry x hok c.cap hcap
  have hcanon := next_canon s.reader i.retry f c.cap
  rw [← n1] at hcanon
  rw [hcanon] at n1 n2
  unfold clientTickG clientSendTick
  simp only [Source.input]
  generalize g.reader.next T i.retry x c.cap = y at n1 n2
  generalize s.reader.next i.retry (decide (y.2 = .ioErr)) c.cap = z at n1 n2
  obtain ⟨y1, y2⟩ := y
  obtain ⟨z1, z2⟩ := z
  simp only at n1 n2
  subst n1
  simp only
  refine ⟨?_, ?_⟩
  · cases y2 with
    | none => rfl
    | ioErr =>
      by_cases hw : (i.wb && !g.reader.again? i.retry) = true
      · simp only [hw, ↓reduceIte]
      · simp only [hw, ↓reduceIte, Bool.false_eq_true]
    | badBuffer => rfl
    | block b =>
      simp only
      cases c.emit i.nonce (some b.index) (dataPacket b) <;> cases i.net <;> rfl
  · cases y2 with
    | none => exact ⟨n2, h.total, h.finished, h.failed⟩
    | ioErr =>
      by_cases hw : (i.wb && !g.reader.again? i.retry) = true
      · simp only [hw, ↓reduceIte]
        exact ⟨n2, h.total, h.finished, h.failed⟩
      · simp only [hw, ↓reduceIte, Bool.false_eq_true]
        exact ⟨n2, h.total, h.finished, rfl⟩
    | badBuffer => exact ⟨n2, h.total, h.finished, rfl⟩
    | block b =>
      simp only
      cases c.emit i.nonce (some b.index) (dataPacket b) with
      | none => exact ⟨n2, h.total, h.finished, rfl⟩
      | some d =>
        cases i.net with
        | sent => exact ⟨n2, h.total, h.finished, h.failed⟩
        | wouldBlock => exact ⟨n2, h.total, h.finished, h.failed⟩
        | error => exact ⟨n2, h.total, h.finished, rfl⟩

/-- A source which cannot seek: if a block must be read again, the client gives up. -/
theorem tick_again {σ ι} {T : Source σ ι} {c : Cfg} {g : SendG σ} (i : CliIn) (x : ι) (ha : g.reader.again? i.retry = true)
    (hn : (g.reader.next T i.retry x c.cap).2 = .ioErr) :
    (clientTickG T c g i.retry x i.wb i.net i.nonce).1.failed = true ∧ (clientTickG T c g i.retry x i.wb i.net i.nonce).2 = none := by
  unfold clientTickG
  simp only [hn, ha, Bool.not_true, Bool.and_false, Bool.false_eq_true, if_false, and_self]

theorem SendRel.recv {σ ι} {T : Source σ ι} {R : ReaderG σ → Reader → Prop} {Ok : σ → ι → Prop} {c : Cfg} (hS : Simulates T c.bs Ok R) {g : SendG σ} {s : SendSt}
    (h : SendRel R g s) (dg : Bytes) :
    SendRel R (clientRecvG c g dg) (clientSendRecv c s dg) := by
  unfold clientRecvG clientSendRecv
  cases c.codec.dec dg with
  | none => exact ⟨h.reader, h.total, h.finished, rfl⟩
  | some b =>
    simp only
    cases Packet.fromBytes b with
    | error e => exact h
    | ok p =>
      cases p with
      | ack blk =>
        obtain ⟨f1, f2⟩ := hS.free h.reader blk.toNat
        simp only
        generalize g.reader.free blk.toNat = y at f1 f2
        generalize s.reader.free blk.toNat = z at f1 f2
        obtain ⟨y1, y2⟩ := y
        obtain ⟨z1, z2⟩ := z
        simp only at f1 f2
        subst f1
        cases y2 with
        | none => exact ⟨f2, h.total, h.finished, rfl⟩
        | some n => exact ⟨f2, by simp only [h.total], hS.finished f2, h.failed⟩
      | error a b => exact ⟨h.reader, h.total, h.finished, rfl⟩
      | read a => exact h
      | write a => exact h
      | data a b => exact h
      | optionalAck a => exact h

/-- The client over a source and an ordinary client which uploads `file` are in the same state. `j`, `j'`: their jobs. -/
inductive CliRel {σ} (R : ReaderG σ → Reader → Prop) (len : Nat) : CliG σ → CliSt → Prop
  | done (r : Except CliErr (Nat × Option Bytes)) (f : Bytes) : CliRel R len (.plain (.done r f)) (.done r f)
  | up {c : Cfg} {room : Nat} {ep : Ep} {g : SendG σ} {s : SendSt} {since : Nat} {auth : Option Bytes} (h : SendRel R g s) (hc : c.bs ≤ c.cap)
      (hl : c.bs = len) :
    CliRel R len (.up c room ep g since auth) (.up c room ep s since auth)

/-- What the ordinary client hears instead. -/
def CliG.input {σ ι} (T : Source σ ι) (g : CliG σ) (i : CliIn) (x : ι) : CliIn :=
  match g with
  | .up c _ _ s _ _ => T.input c.cap s.reader i x
  | .plain _ => i

theorem payload_le (o : Opts) : o.payload ≤ o.blockSize := by
  unfold Opts.payload
  split <;> omega

theorem payload_ge {o : Opts} (h : 512 ≤ o.blockSize) : 471 ≤ o.payload := by
  unfold Opts.payload
  split <;> omega

/-- The block size on which client and server agree. -/
theorem reply_block {S} {v : Cli S} {w : Bool} {o : Opts} {used : Exts} {initial : Bool} {b : Bytes} {ack : Bool} {o' : Opts} {rk : Option RemoteKeys}
    {first : Option Bytes} (h : v.reply w o used initial b = .accept ack o' rk first) : 512 ≤ o'.blockSize ∧ o'.blockSize ≤ Max.max 512 o.blockSize := by
  have hp : 512 ≤ (cliPlain o).blockSize ∧ (cliPlain o).blockSize ≤ Max.max 512 o.blockSize := by simp only [cliPlain]; omega
  unfold Cli.reply at h
  split at h
  · rename_i se hb
    split at h
    · rename_i x y z hk
      simp only [Reply.accept.injEq] at h
      obtain ⟨rfl, rfl, rfl, rfl⟩ := h
      obtain ⟨_, h1, _⟩ := c17_client_limits S _ _ _ _ _ _ _ _ hk
      omega
    · cases h
  · split at h
    · simp only [Reply.accept.injEq] at h
      rw [← h.2.1]; exact hp
    · cases h
  · split at h
    · cases h
    · simp only [Reply.accept.injEq] at h
      rw [← h.2.1]; exact hp
  · split at h <;> cases h
  · cases h

theorem requestOpts_block {S} (v : Cli S) (j : Job) : (v.requestOpts j).blockSize = j.opts.blockSize := by
  unfold Cli.requestOpts Cli.initialSock
  obtain ⟨t, n, o⟩ := j
  simp only
  cases t with
  | upload size f =>
    cases size <;> simp only <;> (repeat' split) <;> rfl
  | download ok => simp only <;> (repeat' split) <;> rfl

theorem requestOpts_file {S} (v : Cli S) (name : Bytes) (o : Opts) (size : Option Nat) (f f' : Bytes) :
    v.requestOpts ⟨.upload size f, name, o⟩ = v.requestOpts ⟨.upload size f', name, o⟩ := by
  unfold Cli.requestOpts
  cases size <;> rfl

/-- The two states are the beginning of uploads of `f` and of `f'`, or they are equal and there is no upload. -/
def SameBut {S} (v : Cli S) (max : Nat) (f f' : Bytes) (s s' : CliSt) : Prop :=
  (∃ c room ep since auth, c.bs ≤ c.cap ∧ (471 ≤ c.bs ∧ c.bs ≤ max) ∧ s = .up c room ep ⟨Reader.new (v.kind c.W) f c.bs c.W, 0, false, false⟩ since auth ∧
    s' = .up c room ep ⟨Reader.new (v.kind c.W) f' c.bs c.W, 0, false, false⟩ since auth) ∨
  (s = s' ∧ ((∃ q, s = .query q) ∨ ∃ r e, s = .done r e))

theorem accepted_file {S} (v : Cli S) (name : Bytes) (o : Opts) (size : Option Nat) (f f' : Bytes) (ep : Ep) (ack : Bool) (o' : Opts)
    (rk : Option RemoteKeys) (first : Option Bytes) (i : CliIn) (ho : 512 ≤ o'.blockSize ∧ o'.blockSize ≤ Max.max 512 o.blockSize) :
    (v.accepted ⟨.upload size f, name, o⟩ ep ack o' rk first i).2 = (v.accepted ⟨.upload size f', name, o⟩ ep ack o' rk first i).2 ∧
    SameBut v (Max.max 512 o.blockSize) f f' (v.accepted ⟨.upload size f, name, o⟩ ep ack o' rk first i).1 (v.accepted ⟨.upload size f', name, o⟩ ep ack o' rk first i).1 := by
  unfold Cli.accepted
  simp only
  generalize (if ack = true then
    if i.sendOk = true then
      ((v.cfgOf (v.configure (v.initialSock o).1 (decide (o.level ≠ .none)) o' rk) o').emit i.nonce2 (some 0) (.ack 0)).map fun d => [d.bytes]
    else none
    else some []) = hs
  cases hs with
  | none => exact ⟨rfl, .inr ⟨rfl, .inr ⟨_, _, rfl⟩⟩⟩
  | some out =>
    have h1 := payload_le o'
    have h2 := payload_ge ho.1
    refine ⟨rfl, .inl ⟨_, _, _, _, _, ?_, ?_, rfl, rfl⟩⟩
    · simp only [Cli.cfgOf]
      omega
    · simp only [Cli.cfgOf]
      omega

/-- In the handshake the content of the file makes no difference. -/
theorem query_file {S} (v : Cli S) (name : Bytes) (o : Opts) (size : Option Nat) (f f' : Bytes) (q : Query) (i : CliIn) :
    (v.step ⟨.upload size f, name, o⟩ (.query q) i).2 = (v.step ⟨.upload size f', name, o⟩ (.query q) i).2 ∧
    SameBut v (Max.max 512 o.blockSize) f f' (v.step ⟨.upload size f, name, o⟩ (.query q) i).1 (v.step ⟨.upload size f', name, o⟩ (.query q) i).1 := by
  simp only [Cli.step, Cli.queryStep, requestOpts_file v name o size f f']
  have e1 : ∀ x, Job.request ⟨.upload size f, name, o⟩ x = Job.request ⟨.upload size f', name, o⟩ x := fun _ => rfl
  have e2 : Job.write ⟨.upload size f, name, o⟩ = true := rfl
  have e3 : Job.write ⟨.upload size f', name, o⟩ = true := rfl
  simp only [e1, e2, e3]
  have hdone : ∀ {r e} {out : List (Ep × Bytes)}, (((CliSt.done r e), out).2 = ((CliSt.done r e), out).2) ∧ SameBut v (Max.max 512 o.blockSize) f f' (.done r e) (.done r e) :=
    ⟨rfl, .inr ⟨rfl, .inr ⟨_, _, rfl⟩⟩⟩
  have hquery : ∀ {q} {out : List (Ep × Bytes)}, (((CliSt.query q), out).2 = ((CliSt.query q), out).2) ∧ SameBut v (Max.max 512 o.blockSize) f f' (.query q) (.query q) :=
    ⟨rfl, .inr ⟨rfl, .inl ⟨_, rfl⟩⟩⟩
  cases v.put (v.initialSock o).1 i.nonce i.sendOk (Job.request ⟨.upload size f', name, o⟩ q.exts) with
  | none => exact hdone
  | some req =>
    simp only
    cases i.recv with
    | error => exact hdone
    | wouldBlock =>
      simp only
      by_cases h : i.t - q.start > v.cfg.requestTimeout
      · simp only [if_pos h]; exact ⟨trivial, hdone (out := []) |>.2⟩
      · simp only [if_neg h]; exact ⟨trivial, hquery (out := []) |>.2⟩
    | dgram src d =>
      simp only
      cases (v.initialSock o).1.recv (d.take q.room) with
      | none => exact hdone
      | some b =>
        simp only
        by_cases h1 : src.ip ≠ v.cfg.endpoint.ip
        · simp only [if_pos h1]; exact ⟨trivial, hquery (out := []) |>.2⟩
        · simp only [if_neg h1]
          by_cases h2 : src ≠ v.cfg.endpoint ∧ v.cfg.allowPortChange = false
          · simp only [if_pos h2]; exact ⟨trivial, hdone (out := []) |>.2⟩
          · simp only [if_neg h2]
            cases hr : v.reply true (v.requestOpts ⟨.upload size f', name, o⟩) q.used q.initial b with
            | fail e ps => exact hdone
            | again => exact hquery
            | accept ack o' rk first =>
              have := accepted_file v name o size f f' src ack o' rk first i (by have := reply_block hr; rw [requestOpts_block] at this; exact this)
              simp only
              exact ⟨by rw [this.1], this.2⟩

theorem CliRel.upload {S σ ι} {v : Cli S} {T : Source σ ι} {R : ReaderG σ → Reader → Prop} {Ok : σ → ι → Prop} {c : Cfg} {room : Nat} {ep : Ep}
    {g : SendG σ} {s : SendSt} {since : Nat} {auth : Option Bytes} (hS : Simulates T c.bs Ok R) (hc : c.bs ≤ c.cap)
    (h : SendRel R g s) (i : CliIn) (x : ι) (hok : Ok g.reader.src x) :
    (v.upStepG T c room ep g since auth i x).2 = (v.upStep c room ep s since auth (T.input c.cap g.reader i x)).2 ∧
    CliRel R c.bs (v.upStepG T c room ep g since auth i x).1 (v.upStep c room ep s since auth (T.input c.cap g.reader i x)).1 := by
  obtain ⟨t1, t2⟩ := SendRel.tick hS hc h i x hok
  have e1 : (T.input c.cap g.reader i x).retry = i.retry := rfl
  have e2 : (T.input c.cap g.reader i x).net = i.net := rfl
  have e3 : (T.input c.cap g.reader i x).nonce = i.nonce := rfl
  have e4 : (T.input c.cap g.reader i x).recv = i.recv := rfl
  have e5 : (T.input c.cap g.reader i x).t = i.t := rfl
  have key : (v.upStepG T c room ep g since auth i x).2 = (v.upStep c room ep s since auth (T.input c.cap g.reader i x)).2 ∧
    CliRel R c.bs (v.upStepG T c room ep g since auth i x).1 (v.upStep c room ep s since auth (T.input c.cap g.reader i x)).1 := by
    unfold Cli.upStepG Cli.upStep
    simp only [e1, e2, e3, e4, e5]
    generalize clientTickG T c g i.retry x i.wb i.net i.nonce = y at t1 t2
    generalize clientSendTick c s i.retry (T.input c.cap g.reader i x).fail (T.input c.cap g.reader i x).wb i.net i.nonce = z at t1 t2
    obtain ⟨y1, y2⟩ := y
    obtain ⟨z1, z2⟩ := z
    simp only at t1 t2
    subst t1
    simp only [t2.failed]
    by_cases hf : z1.failed = true
    · simp only [hf, ↓reduceIte]
      exact ⟨trivial, .done _ _⟩
    · simp only [hf, ↓reduceIte, Bool.false_eq_true]
      cases i.recv with
      | error => exact ⟨rfl, .done _ _⟩
      | wouldBlock =>
        simp only
        by_cases h1 : i.t - since > v.cfg.requestTimeout
        · simp only [h1, ↓reduceIte]; exact ⟨trivial, .done _ _⟩
        · simp only [h1, ↓reduceIte]; exact ⟨trivial, .up t2 hc rfl⟩
      | dgram src d =>
        have r := SendRel.recv hS t2 (d.take room)
        simp only [r.failed, r.finished, r.total]
        by_cases h1 : (c.codec.dec (d.take room)).isNone = true
        · simp only [h1, ↓reduceIte]; exact ⟨trivial, .done _ _⟩
        · simp only [h1, ↓reduceIte, Bool.false_eq_true]
          by_cases h2 : src ≠ ep
          · simp only [h2, ↓reduceIte, ne_eq, not_false_eq_true]; exact ⟨trivial, .up t2 hc rfl⟩
          · simp only [h2, ↓reduceIte]
            by_cases h3 : (clientSendRecv c z1 (d.take room)).failed = true
            · simp only [h3, ↓reduceIte]; exact ⟨trivial, .done _ _⟩
            · simp only [h3, ↓reduceIte, Bool.false_eq_true]
              by_cases h4 : (clientSendRecv c z1 (d.take room)).finished = true
              · simp only [h4, ↓reduceIte]; exact ⟨trivial, .done _ _⟩
              · simp only [h4, ↓reduceIte, Bool.false_eq_true]; exact ⟨trivial, .up r hc rfl⟩
  exact key

theorem upload_again {S σ ι} {v : Cli S} {T : Source σ ι} {c : Cfg} {room : Nat} {ep : Ep} {g : SendG σ} {since : Nat} {auth : Option Bytes} (i : CliIn) (x : ι)
    (ha : g.reader.again? i.retry = true) (hn : (g.reader.next T i.retry x c.cap).2 = .ioErr) :
    v.upStepG T c room ep g since auth i x = (.plain (.done (.error .io) []), []) := by
  obtain ⟨a1, a2⟩ := tick_again i x ha hn
  unfold Cli.upStepG
  simp only [a1, a2, if_true]
  rfl

/-! ### Runs -/

/-- Does the client, if it is uploading, repeat a block in this iteration by reading it again? (Only with `prefer_seek`.) -/
def CliSt.rereads (s : CliSt) (i : CliIn) : Bool :=
  match s with
  | .up _ _ _ s _ _ => s.reader.again? i.retry
  | _ => false

/-- What a source delivers when it is read in blocks of `bs` bytes, and when it fails. -/
structure Feeds {σ ι} (T : Source σ ι) (src : σ) (φ : ι → Bool) (file : Bytes) (bs : Nat) (At : Nat → σ → Prop) : Prop where
  start : At 0 src
  delivers : Delivers T file bs At fun _ _ => True
  fails : ∀ {k s}, At k s → k < nblocks file bs → ∀ i, T.fails s bs i = φ i

theorem CliRel.step {S σ ι} {v : Cli S} {T : Source σ ι} {src : σ} {φ : ι → Bool} {file : Bytes} {At : Nat → σ → Prop} {len : Nat} (hN : NoSeek T)
    (hF : Feeds T src φ file len At) (hl : 0 < len) (j j' : Job) {g : CliG σ} {s : CliSt} (h : CliRel (ReaderRel file len At) len g s) (i : CliIn) (x : ι) (hx : φ x = i.fail) :
    (s.rereads i = false → (v.stepG T src j g i x).2 = (v.step j' s i).2 ∧ CliRel (ReaderRel file len At) len (v.stepG T src j g i x).1 (v.step j' s i).1) ∧
    (s.rereads i = true → v.stepG T src j g i x = (.plain (.done (.error .io) []), [])) := by
  cases h with
  | done r f => exact ⟨fun _ => ⟨rfl, .done r f⟩, (fun h => by cases h)⟩
  | @up c room ep g s since auth h hc hl' =>
    subst hl'
    have hS := ReaderRel.simulates hF.delivers hN hl
    obtain ⟨n1, n2, n3⟩ := ReaderRel.next hF.delivers hN hl h.reader i.retry x trivial c.cap hc
    obtain ⟨u1, u2⟩ := CliRel.upload (v := v) (room := room) (ep := ep) (since := since) (auth := auth) hS hc h i x trivial
    have ha := h.reader.again i.retry
    refine ⟨fun hr => ?_, fun hr => ?_⟩
    case refine_2 =>
      have hr : g.reader.again? i.retry = true := by rw [ha]; exact hr
      exact upload_again i x hr (n3 hr)
    have hr : s.reader.again? i.retry = false := hr
    suffices he : v.upStep c room ep s since auth (T.input c.cap g.reader i x) = v.upStep c room ep s since auth i by
      rw [he] at u1 u2
      exact ⟨u1, u2⟩
    obtain ⟨k, k1, k2, k3⟩ := h.reader.over
    have hnext : s.reader.next i.retry (T.input c.cap g.reader i x).fail c.cap = s.reader.next i.retry i.fail c.cap := by
      have hcanon := next_canon s.reader i.retry (T.fails g.reader.src c.bs x || g.reader.again? i.retry) c.cap
      rw [← n1] at hcanon
      have : (T.input c.cap g.reader i x).fail = decide ((g.reader.next T i.retry x c.cap).2 = .ioErr) := rfl
      rw [this, ← hcanon, ha, hr, Bool.or_false]
      by_cases hk : k < nblocks file c.bs
      · rw [hF.fails k2 hk, hx]
      · exact k3 (by omega) _ hr _ _ _
    have hwb : (T.input c.cap g.reader i x).wb = i.wb := by simp only [Source.input, ha, hr, Bool.not_false, Bool.and_true]
    have htick : clientSendTick c s i.retry (T.input c.cap g.reader i x).fail (T.input c.cap g.reader i x).wb i.net i.nonce =
        clientSendTick c s i.retry i.fail i.wb i.net i.nonce := by
      unfold clientSendTick
      rw [hnext, hwb]
    unfold Cli.upStep
    have e1 : (T.input c.cap g.reader i x).retry = i.retry := rfl
    have e2 : (T.input c.cap g.reader i x).net = i.net := rfl
    have e3 : (T.input c.cap g.reader i x).nonce = i.nonce := rfl
    have e4 : (T.input c.cap g.reader i x).recv = i.recv := rfl
    have e5 : (T.input c.cap g.reader i x).t = i.t := rfl
    simp only [e1, e2, e3, e4, e5, htick]

/-- A client which is done stays so. -/
theorem runFrom_done {S} (v : Cli S) (j : Job) (r : Except CliErr (Nat × Option Bytes)) (f : Bytes) (is : List CliIn) :
    v.runFrom j (.done r f) is = (.done r f, []) := by
  induction is with
  | nil => rfl
  | cons i is ih => simp only [Cli.runFrom, Cli.step, ih, List.append_nil]

theorem runFromG_done {S σ ι} (v : Cli S) (T : Source σ ι) (src : σ) (j : Job) (r : Except CliErr (Nat × Option Bytes)) (f : Bytes) (is : List (CliIn × ι)) :
    v.runFromG T src j (.plain (.done r f)) is = (.plain (.done r f), []) := by
  induction is with
  | nil => rfl
  | cons i is ih => simp only [Cli.runFromG, Cli.stepG, Cli.step, ih, List.append_nil]

/-- The parameters of an upload do not change. -/
theorem up_stays {S} (v : Cli S) (j : Job) {len : Nat} {s : CliSt}
    (h : (∀ c room ep y since auth, s = .up c room ep y since auth → c.bs = len) ∧ ((∃ r f, s = .done r f) ∨ ∃ c room ep y since auth, s = .up c room ep y since auth)) (is : List CliIn) :
    ∀ c room ep y since auth, (v.runFrom j s is).1 = .up c room ep y since auth → c.bs = len := by
  induction is generalizing s with
  | nil => exact h.1
  | cons i is ih =>
    simp only [Cli.runFrom]
    rcases h.2 with ⟨r, f, rfl⟩ | ⟨c, room, ep, y, since, auth, rfl⟩
    · exact ih h
    · have hc := h.1 _ _ _ _ _ _ rfl
      have hd : ∀ {r f}, (∀ c room ep y since auth, CliSt.done r f = .up c room ep y since auth → c.bs = len) ∧
          ((∃ r' f', CliSt.done r f = .done r' f') ∨ ∃ c room ep y since auth, CliSt.done r f = .up c room ep y since auth) :=
        ⟨(fun _ _ _ _ _ _ h => by cases h), .inl ⟨_, _, rfl⟩⟩
      have hu : ∀ {room ep y since auth}, (∀ c' room' ep' y' since' auth', CliSt.up c room ep y since auth = .up c' room' ep' y' since' auth' → c'.bs = len) ∧
          ((∃ r' f', CliSt.up c room ep y since auth = .done r' f') ∨
            ∃ c' room' ep' y' since' auth', CliSt.up c room ep y since auth = .up c' room' ep' y' since' auth') :=
        ⟨(fun _ _ _ _ _ _ h => by
          simp only [CliSt.up.injEq] at h
          rw [← h.1]; exact hc), .inr ⟨_, _, _, _, _, _, rfl⟩⟩
      refine ih ?_
      simp only [Cli.step, Cli.upStep]
      (repeat' split) <;> first | exact hd | exact hu

/-- What the two runs have in common: `n` is the number of the first iteration in which a block is read again. -/
structure AlikeRuns {S σ ι} (v : Cli S) (T : Source σ ι) (src : σ) (len : Nat) (j j' : Job) (g : CliG σ) (s : CliSt) (is : List (CliIn × ι)) : Prop where
  same : (∀ k (hk : k < is.length), (v.runFrom j' s ((is.map (·.1)).take k)).1.rereads is[k].1 = false) →
    (v.runFromG T src j g is).2 = (v.runFrom j' s (is.map (·.1))).2 ∧ (v.runFromG T src j g is).1.result = (v.runFrom j' s (is.map (·.1))).1.outcome
  stop : ∀ n (hn : n < is.length), (∀ k (hk : k < n), (v.runFrom j' s ((is.map (·.1)).take k)).1.rereads (is[k]'(by omega)).1 = false) →
    (v.runFrom j' s ((is.map (·.1)).take n)).1.rereads is[n].1 = true →
    (v.runFromG T src j g is).2 = (v.runFrom j' s ((is.map (·.1)).take n)).2 ∧ (v.runFromG T src j g is).1.result = some (.error .io)
  block : ∀ k c room ep y since auth, (v.runFrom j' s ((is.map (·.1)).take k)).1 = .up c room ep y since auth → c.bs = len

theorem AlikeRuns.cons {S σ ι} {v : Cli S} {T : Source σ ι} {src : σ} {len : Nat} {j j' : Job} {g g' : CliG σ} {s s' : CliSt} {out : List (Ep × Bytes)}
    {i : CliIn × ι} {is : List (CliIn × ι)} (hg : v.stepG T src j g i.1 i.2 = (g', out)) (hs : v.step j' s i.1 = (s', out)) (hr : s.rereads i.1 = false)
    (hb : ∀ c room ep y since auth, s = .up c room ep y since auth → c.bs = len) (h : AlikeRuns v T src len j j' g' s' is) :
    AlikeRuns v T src len j j' g s (i :: is) where
  same hk := by
    have := h.same fun k hk' => by
      have := hk (k + 1) (by simp only [List.length_cons]; omega)
      simpa only [List.map_cons, List.take_succ_cons, Cli.runFrom, hs, List.getElem_cons_succ] using this
    simp only [Cli.runFromG, List.map_cons, Cli.runFrom, hg, hs, this.1, this.2, and_self]
  stop n hn hk hrn := by
    cases n with
    | zero =>
      have : s.rereads i.1 = true := hrn
      rw [hr] at this
      cases this
    | succ n =>
      have := h.stop n (by simpa using hn) (fun k hk' => by
        have := hk (k + 1) (by omega)
        simpa only [List.map_cons, List.take_succ_cons, Cli.runFrom, hs, List.getElem_cons_succ] using this)
        (by simpa only [List.map_cons, List.take_succ_cons, Cli.runFrom, hs, List.getElem_cons_succ] using hrn)
      simp only [Cli.runFromG, List.map_cons, List.take_succ_cons, Cli.runFrom, hg, hs, this.1, this.2, and_self]
  block k c room ep y since auth he := by
    cases k with
    | zero => exact hb _ _ _ _ _ _ he
    | succ k =>
      refine h.block k c room ep y since auth ?_
      simpa only [List.map_cons, List.take_succ_cons, Cli.runFrom, hs] using he

theorem CliRel.run {S σ ι} {v : Cli S} {T : Source σ ι} {src : σ} {φ : ι → Bool} {file : Bytes} {At : Nat → σ → Prop} {len : Nat} (hN : NoSeek T)
    (hF : Feeds T src φ file len At) (hl : 0 < len) (j j' : Job) {g : CliG σ} {s : CliSt} (h : CliRel (ReaderRel file len At) len g s) (is : List (CliIn × ι))
    (hx : ∀ i ∈ is, φ i.2 = i.1.fail) : AlikeRuns v T src len j j' g s is := by
  induction is generalizing g s with
  | nil =>
    refine ⟨fun _ => ⟨rfl, ?_⟩, fun n hn => absurd hn (Nat.not_lt_zero n), fun k c room ep y since auth he => ?_⟩
    · cases h <;> rfl
    · simp only [List.map_nil, List.take_nil, Cli.runFrom] at he
      cases h with
      | done r f => cases he
      | up h hc hl' =>
        simp only [CliSt.up.injEq] at he
        rw [← he.1]; exact hl'
  | cons i is ih =>
    obtain ⟨s1, s2⟩ := CliRel.step (v := v) (src := src) hN hF hl j j' h i.1 i.2 (hx i (List.mem_cons_self ..))
    have hdone : (∃ r f, s = .done r f) ∨ ∃ c room ep y since auth, s = .up c room ep y since auth := by
      cases h with
      | done r f => exact .inl ⟨_, _, rfl⟩
      | up h hc hl' => exact .inr ⟨_, _, _, _, _, _, rfl⟩
    have hb : ∀ c room ep y since auth, s = .up c room ep y since auth → c.bs = len := by
      intro c room ep y since auth he
      cases h with
      | done r f => cases he
      | up h hc hl' =>
        simp only [CliSt.up.injEq] at he
        rw [← he.1]; exact hl'
    cases hr : s.rereads i.1 with
    | false =>
      obtain ⟨a1, a2⟩ := s1 hr
      exact AlikeRuns.cons (g' := (v.stepG T src j g i.1 i.2).1) (out := (v.step j' s i.1).2) (by rw [← a1]) rfl hr hb (ih a2 fun i hi => hx i (List.mem_cons_of_mem _ hi))
    | true =>
      have := s2 hr
      refine ⟨fun hk => ?_, fun n hn hk hrn => ?_, fun k c room ep y since auth he => ?_⟩
      · have := hk 0 (by simp)
        have : s.rereads i.1 = false := this
        rw [hr] at this
        cases this
      · cases n with
        | zero =>
          simp only [Cli.runFromG, this, runFromG_done, List.take_zero, Cli.runFrom, List.append_nil, CliG.result, and_self]
        | succ n =>
          have : s.rereads i.1 = false := hk 0 (by omega)
          rw [hr] at this
          cases this
      · exact up_stays v j' ⟨hb, hdone⟩ _ c room ep y since auth he

/-- From the handshake on. The content which the source delivers may depend on the block size which the server chooses. -/
theorem run_source {S σ ι} (v : Cli S) {T : Source σ ι} {src : σ} {φ : ι → Bool} (name : Bytes) (o : Opts) (size : Option Nat) (f : Bytes) (file : Nat → Bytes)
    (At : Nat → Nat → σ → Prop) (hN : NoSeek T) (hF : ∀ len, 471 ≤ len → len ≤ Max.max 512 o.blockSize → Feeds T src φ (file len) len (At len)) (q : Query)
    (is : List (CliIn × ι)) (hx : ∀ i ∈ is, φ i.2 = i.1.fail) :
    ∃ len, (471 ≤ len ∧ len ≤ Max.max 512 o.blockSize) ∧
      AlikeRuns v T src len ⟨.upload size f, name, o⟩ ⟨.upload size (file len), name, o⟩ (.plain (.query q)) (.query q) is := by
  induction is generalizing q with
  | nil =>
    refine ⟨471, ⟨by omega, by omega⟩, fun _ => ⟨rfl, rfl⟩, fun n hn => absurd hn (Nat.not_lt_zero n), fun k c room ep y since auth he => ?_⟩
    simp only [List.map_nil, List.take_nil, Cli.runFrom] at he
    cases he
  | cons i is ih =>
    have hx' : ∀ i ∈ is, φ i.2 = i.1.fail := fun i hi => hx i (List.mem_cons_of_mem _ hi)
    have hq : ∀ c room ep y since auth len, CliSt.query q = .up c room ep y since auth → c.bs = len := by intro _ _ _ _ _ _ _ h; cases h
    have hs : v.stepG T src ⟨.upload size f, name, o⟩ (.plain (.query q)) i.1 i.2 =
      match v.step ⟨.upload size f, name, o⟩ (.query q) i.1 with
      | (.up c room ep _ since auth, out) => (.up c room ep ⟨ReaderG.new (v.kind c.W) src c.bs c.W, 0, false, false⟩ since auth, out)
      | (s, out) => (.plain s, out) := rfl
    have key := fun f' => query_file v name o size f f' q i.1
    generalize hy : v.step ⟨.upload size f, name, o⟩ (.query q) i.1 = y at hs key
    obtain ⟨y1, y2⟩ := y
    simp only at key
    rcases (key f).2 with ⟨c, room, ep, since, auth, c1, c2, c3, _⟩ | ⟨_, ⟨q', c3⟩ | ⟨r, e, c3⟩⟩
    · subst c3
      simp only at hs
      obtain ⟨k1, k2⟩ := key (file c.bs)
      rcases k2 with ⟨c', room', ep', since', auth', _, _, d3, d4⟩ | ⟨_, ⟨_, d⟩ | ⟨_, _, d⟩⟩
      · simp only [CliSt.up.injEq] at d3
        obtain ⟨rfl, rfl, rfl, -, rfl, rfl⟩ := d3
        have hF' := hF c.bs c2.1 c2.2
        refine ⟨c.bs, c2, AlikeRuns.cons hs (s' := (v.step ⟨.upload size (file c.bs), name, o⟩ (.query q) i.1).1) (by rw [k1]) rfl
          (fun c room ep y since auth => hq c room ep y since auth _) ?_⟩
        rw [d4]
        exact CliRel.run hN hF' (by omega) _ _ (.up ⟨ReaderRel.init hF'.start _ _, rfl, rfl, rfl⟩ c1 rfl) is hx'
      · cases d
      · cases d
    · subst c3
      simp only at hs
      obtain ⟨len, hl, ha⟩ := ih q' hx'
      refine ⟨len, hl, ?_⟩
      obtain ⟨k1, k2⟩ := key (file len)
      rcases k2 with ⟨_, _, _, _, _, _, _, d3, _⟩ | ⟨d, _⟩
      · cases d3
      · exact AlikeRuns.cons hs (s' := .query q') (by rw [k1, d]) rfl (fun c room ep y since auth => hq c room ep y since auth _) ha
    · subst c3
      simp only at hs
      refine ⟨471, ⟨by omega, by omega⟩, ?_⟩
      obtain ⟨k1, k2⟩ := key (file 471)
      rcases k2 with ⟨_, _, _, _, _, _, _, d3, _⟩ | ⟨d, _⟩
      · cases d3
      · exact AlikeRuns.cons hs (s' := .done r e) (by rw [k1, d]) rfl (fun c room ep y since auth => hq c room ep y since auth _)
          (CliRel.run hN (hF 471 (by omega) (by omega)) (by omega) _ _ (.done r e) is hx')

end Tftp

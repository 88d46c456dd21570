import Verif.ReaderApi
import Verif.ReaderSpec
/- Properties C06 - C09: the readers. -/
namespace Tftp
open Spec

/-- The trace of a reader on a list of calls; `cap` is the size of the output buffer. -/
def Reader.trace (cap : Nat) : Reader → List Call → List Event
  | _, [] => []
  | r, .next retry fail :: cs =>
    let (r', o) := r.next retry fail cap
    ⟨.next retry fail, .out o, r'.isFinished⟩ :: Reader.trace cap r' cs
  | r, .ack t :: cs =>
    let (r', n) := r.free (t % 65536)
    ⟨.ack t, .freed n, r'.isFinished⟩ :: Reader.trace cap r' cs

theorem slice_block (file : Bytes) (bs i : Nat) (h : 1 ≤ i) :
    slice file ((i - 1) * bs) (i * bs) = block file bs i := by
  obtain ⟨i, rfl⟩ : ∃ k, i = k + 1 := ⟨i - 1, by omega⟩
  simp only [slice, block, List.drop_take, Nat.add_sub_cancel]
  congr 1
  rw [Nat.succ_mul]; omega

theorem Window.ack_eq (file : Bytes) (bs : Nat) (w : Window) (t : Nat) (h : t ≤ w.top) :
    w.ack file bs t = (⟨max w.base t, if w.base < t then t else w.cur, w.top⟩,
      bytesIn file bs t - bytesIn file bs w.base) := by
  obtain ⟨b, c, p⟩ := w
  simp only at h
  simp only [Window.ack, Nat.min_eq_left h]
  split
  · rename_i hlt
    rw [Nat.max_eq_right (by omega)]
  · rename_i hlt
    rw [Nat.max_eq_left (by omega)]
    have := bytesIn_mono file bs (show t ≤ b by omega)
    simp; omega

theorem Window.finished_iff {file bs W w} (h : Window.Inv file bs W w) :
    Window.finished file bs w ↔ w.base = file.length / bs + 1 := by
  obtain ⟨h1, h2, h3, h4⟩ := h
  unfold Window.finished
  simp only [nblocks] at *
  omega

/-- Every reader, from every state which refines a window. -/
theorem trace_ok_of_sim (cap : Nat) (file : Bytes) (bs W : Nat) (hbs : 0 < bs) (hcap : bs ≤ cap)
    (hW : W ≤ 10000) (cs : List Call) :
    ∀ (m : Mapper) (r : Reader) (w : Window), ReaderSim file bs W m r w → m.Inv w.base →
      TraceOk file bs W w.base w.cur w.top (Reader.trace cap r cs) := by
  induction cs with
  | nil => intros; trivial
  | cons c cs ih =>
    intro m r w h hm
    have hinv := h.inv
    cases c with
    | next retry fail =>
      have hn := h.next hbs retry fail cap hcap
      simp only [Reader.trace, TraceOk]
      rcases hn with ⟨h1, h2, h3⟩ | ⟨h2, h3⟩
      · rw [h2]
        refine ⟨?_, Or.inl ⟨rfl, h1, ih _ _ _ h3 hm⟩⟩
        rw [h3.finished, decide_eq_true_eq, Window.finished_iff hinv]
      · cases ho : (w.next file bs W retry).2 with
        | none =>
          have hw : (w.next file bs W retry).1 = w := by
            unfold Window.next at ho ⊢
            split at ho
            · simp at ho
            · rw [if_neg (by assumption)]
              split at ho
              · simp at ho
              · rw [if_neg (by assumption)]
                split at ho
                · simp at ho
                · rw [if_neg (by assumption)]
          rw [hw] at h3
          rw [h2, ho, expect]
          refine ⟨?_, Or.inr (Or.inl ⟨rfl, ?_, ?_, ?_, ih _ _ _ h3 hm⟩)⟩
          · rw [h3.finished, decide_eq_true_eq, Window.finished_iff hinv]
          all_goals
            obtain ⟨i1, i2, i3, i4⟩ := hinv
            unfold Window.next at ho
            split at ho
            · simp at ho
            · split at ho
              · simp at ho
              · split at ho
                · simp at ho
                · simp only [nblocks] at *
                  first
                  | omega
                  | (intro hr; simp only [hr, true_and] at *; omega)
        | some x =>
          obtain ⟨i, again⟩ := x
          obtain ⟨f1, f2, f3, f4, f5⟩ := Window.next_some hinv ho
          have hi' := h3.inv
          rw [f5] at h3 hi'
          rw [h2, ho, expect]
          refine ⟨?_, Or.inr (Or.inr ⟨i, ?_, f1, f2, f3, ?_, ih _ _ _ h3 hm⟩)⟩
          · rw [h3.finished, decide_eq_true_eq, Window.finished_iff hi']
          · rw [slice_block _ _ _ (by omega)]
            have : again = decide (i ≤ w.top) := by
              obtain ⟨i1, i2, i3, i4⟩ := hinv
              have hle : i ≤ w.top + 1 := by
                unfold Window.next at ho
                split at ho
                · simp only [Option.some.injEq, Prod.mk.injEq] at ho; omega
                · split at ho
                  · simp only [Option.some.injEq, Prod.mk.injEq] at ho; omega
                  · split at ho
                    · simp only [Option.some.injEq, Prod.mk.injEq] at ho; omega
                    · simp at ho
              rw [Bool.eq_iff_iff, decide_eq_true_eq]
              cases again with
              | false => simp at f4 ⊢; omega
              | true => simp at f4 ⊢; omega
            rw [this]
          · obtain ⟨i1, i2, i3, i4⟩ := hinv
            unfold Window.next at ho
            split at ho
            · rename_i hc
              simp only [Option.some.injEq, Prod.mk.injEq] at ho
              rw [if_pos hc]; omega
            · rename_i hc
              rw [if_neg hc]
              split at ho
              · simp only [Option.some.injEq, Prod.mk.injEq] at ho; omega
              · split at ho
                · simp only [Option.some.injEq, Prod.mk.injEq] at ho; omega
                · simp at ho
    | ack t =>
      simp only [Reader.trace, TraceOk]
      intro ht1 ht2
      have hroom := hinv.room
      obtain ⟨e1, e2⟩ := m.index_step w.base t hm ht2 (by omega)
      have hf := h.free hbs (t % 65536) (by omega)
      rw [e1, Window.ack_eq _ _ _ _ ht1] at hf
      obtain ⟨f1, f2⟩ := hf
      refine ⟨?_, ?_, ih _ _ _ f2 e2⟩
      · rw [f1]; rfl
      · rw [f2.finished, decide_eq_true_eq, Window.finished_iff f2.inv]

/-- **C06**: the single block reader is a stop-and-wait sender (sliding window of size 1) of the file:
see `Spec.TraceOk`. For every file, block size and call history. -/
theorem c06_single_block_reader (file : Bytes) (bs cap : Nat) (hbs : 0 < bs) (hcap : bs ≤ cap)
    (calls : List Call) :
    TraceOk file bs 1 0 0 0 (Reader.trace cap (Reader.new .single file bs 1) calls) :=
  trace_ok_of_sim cap file bs 1 hbs hcap (by omega) calls _ _ _
    (ReaderSim.init .single file bs 1 fun _ => rfl) Mapper.inv_new

/-- **C07**: the in-memory windowed reader is a sliding window sender of the file. -/
theorem c07_multiple_block_reader (file : Bytes) (bs W cap : Nat) (hbs : 0 < bs) (hcap : bs ≤ cap)
    (hW : W ≤ 10000) (calls : List Call) :
    TraceOk file bs W 0 0 0 (Reader.trace cap (Reader.new .multi file bs W) calls) :=
  trace_ok_of_sim cap file bs W hbs hcap hW calls _ _ _
    (ReaderSim.init .multi file bs W (by simp)) Mapper.inv_new

/-- **C08**: the seeking windowed reader is a sliding window sender of the file. -/
theorem c08_seek_reader (file : Bytes) (bs W cap : Nat) (hbs : 0 < bs) (hcap : bs ≤ cap)
    (hW : W ≤ 10000) (calls : List Call) :
    TraceOk file bs W 0 0 0 (Reader.trace cap (Reader.new .seek file bs W) calls) :=
  trace_ok_of_sim cap file bs W hbs hcap hW calls _ _ _
    (ReaderSim.init .seek file bs W (by simp)) Mapper.inv_new

/-- Operations with raw block numbers: what an arbitrary (hostile) peer can cause. -/
inductive Op
  | next (retry fail : Bool)
  | ack (block : Nat)
deriving DecidableEq, Repr

/-- Outputs of a reader on raw operations; stops at a panic. -/
def Reader.blocks (cap : Nat) : Reader → List Op → List NextOut
  | _, [] => []
  | r, .next retry fail :: cs =>
    let (r', o) := r.next retry fail cap
    o :: Reader.blocks cap r' cs
  | r, .ack b :: cs =>
    let (r', n) := r.free b
    match n with
    | none => []
    | some _ => Reader.blocks cap r' cs

/-- Every block any reader ever hands out, under arbitrary acknowledgement numbers (forged, stale,
from the future), retries and read failures, carries the number and the bytes of its place in the
file. -/
theorem c07_blocks_exact_any_acks (k : Kind) (file : Bytes) (bs W cap : Nat) (hbs : 0 < bs)
    (hcap : bs ≤ cap) (hk : k = .single → W = 1) (ops : List Op) (b : Block)
    (h : NextOut.block b ∈ Reader.blocks cap (Reader.new k file bs W) ops) :
    1 ≤ b.index ∧ b.index ≤ file.length / bs + 1 ∧ b.block = b.index % 65536 ∧
    b.data = slice file ((b.index - 1) * bs) (b.index * bs) := by
  have key : ∀ (ops : List Op) (m : Mapper) (r : Reader) (w : Window), ReaderSim file bs W m r w →
      NextOut.block b ∈ Reader.blocks cap r ops →
      1 ≤ b.index ∧ b.index ≤ file.length / bs + 1 ∧ b.block = b.index % 65536 ∧
      b.data = slice file ((b.index - 1) * bs) (b.index * bs) := by
    intro ops
    induction ops with
    | nil => intro m r w _ h; simp [Reader.blocks] at h
    | cons c cs ih =>
      intro m r w hs h
      cases c with
      | next retry fail =>
        simp only [Reader.blocks, List.mem_cons] at h
        rcases hs.next hbs retry fail cap hcap with ⟨-, h2, h3⟩ | ⟨h2, h3⟩
        · rcases h with h | h
          · rw [h2] at h; simp at h
          · exact ih _ _ _ h3 h
        · rcases h with h | h
          · rw [h2] at h
            cases ho : (w.next file bs W retry).2 with
            | none => rw [ho] at h; simp [expect] at h
            | some x =>
              obtain ⟨i, again⟩ := x
              obtain ⟨f1, f2, f3, f4, f5⟩ := Window.next_some hs.inv ho
              rw [ho] at h
              simp only [expect, NextOut.block.injEq] at h
              subst h
              exact ⟨by simp only; omega, f3, rfl, (slice_block _ _ _ (by omega)).symm⟩
          · exact ih _ _ _ h3 h
      | ack blk =>
        simp only [Reader.blocks] at h
        rcases hs.free_any hbs blk with hn | ⟨w', hw, -⟩
        · rw [hn] at h; simp at h
        · split at h
          · simp at h
          · exact ih _ _ _ hw h
  exact key ops _ _ _ (ReaderSim.init k file bs W hk) h

/-- **C09**: as long as the acknowledgements are legitimate (they name a block handed out, at most
10000 behind the newest one), all readers answer every call of every history alike.  Legitimacy is
judged on the trace of the first reader. -/
def Legit : (acked emitted : Nat) → List Event → Prop
  | _, _, [] => True
  | acked, emitted, ⟨.next _ fail, obs, _⟩ :: rest =>
    fail = false ∧
    match obs with
    | .out (.block b) => Legit acked (max emitted b.index) rest
    | _ => Legit acked emitted rest
  | acked, emitted, ⟨.ack t, _, _⟩ :: rest =>
    t ≤ emitted ∧ acked ≤ t + 10000 ∧ Legit (max acked t) emitted rest

theorem same_trace (cap : Nat) (file : Bytes) (bs W : Nat) (hbs : 0 < bs) (hcap : bs ≤ cap)
    (hW : W ≤ 10000) (cs : List Call) :
    ∀ (m : Mapper) (r r2 : Reader) (w : Window), ReaderSim file bs W m r w →
      ReaderSim file bs W m r2 w → m.Inv w.base →
      Legit w.base w.top (Reader.trace cap r cs) →
      Reader.trace cap r2 cs = Reader.trace cap r cs := by
  induction cs with
  | nil => intros; rfl
  | cons c cs ih =>
    intro m r r2 w h h' hm hl
    have hinv := h.inv
    cases c with
    | next retry fail =>
      simp only [Reader.trace, Legit] at hl ⊢
      obtain ⟨hfail, hl⟩ := hl
      subst hfail
      rcases h.next hbs retry false cap hcap with ⟨h1, -⟩ | ⟨h2, h3⟩
      · simp at h1
      rcases h'.next hbs retry false cap hcap with ⟨h1, -⟩ | ⟨h2', h3'⟩
      · simp at h1
      rw [h2, h2', h3.finished, h3'.finished]
      rw [h2] at hl
      cases ho : (w.next file bs W retry).2 with
      | none =>
        have hw : (w.next file bs W retry).1 = w := by
          unfold Window.next at ho ⊢
          split at ho
          · simp at ho
          · rw [if_neg (by assumption)]
            split at ho
            · simp at ho
            · rw [if_neg (by assumption)]
              split at ho
              · simp at ho
              · rw [if_neg (by assumption)]
        rw [ho] at hl
        simp only [expect] at hl
        rw [hw] at h3 h3'
        rw [ih _ _ _ _ h3 h3' hm hl]
      | some x =>
        obtain ⟨i, again⟩ := x
        obtain ⟨f1, f2, f3, f4, f5⟩ := Window.next_some hinv ho
        rw [ho] at hl
        simp only [expect] at hl
        rw [f5] at h3 h3'
        rw [ih _ _ _ _ h3 h3' hm hl]
    | ack t =>
      simp only [Reader.trace, Legit] at hl ⊢
      obtain ⟨ht1, ht2, hl⟩ := hl
      have hroom := hinv.room
      obtain ⟨e1, e2⟩ := m.index_step w.base t hm ht2 (by omega)
      have hf := h.free hbs (t % 65536) (by omega)
      have hf' := h'.free hbs (t % 65536) (by omega)
      rw [e1, Window.ack_eq _ _ _ _ ht1] at hf hf'
      rw [hf.1, hf'.1, hf.2.finished, hf'.2.finished, ih _ _ _ _ hf.2 hf'.2 e2 hl]

theorem c09_readers_equivalent (k k2 : Kind) (file : Bytes) (bs W cap : Nat) (hbs : 0 < bs)
    (hcap : bs ≤ cap) (hW : W ≤ 10000) (hk : k = .single → W = 1) (hk2 : k2 = .single → W = 1)
    (calls : List Call)
    (hl : Legit 0 0 (Reader.trace cap (Reader.new k file bs W) calls)) :
    Reader.trace cap (Reader.new k2 file bs W) calls =
      Reader.trace cap (Reader.new k file bs W) calls :=
  same_trace cap file bs W hbs hcap hW calls _ _ _ _ (ReaderSim.init k file bs W hk)
    (ReaderSim.init k2 file bs W hk2) Mapper.inv_new hl

/-- Outputs on raw operations (no read failures) until completion is reported, which is when the
transfer loops stop. -/
def Reader.answers (cap : Nat) : Reader → List Op → List (Obs × Bool)
  | _, [] => []
  | r, op :: cs =>
    if r.isFinished then []
    else
      match op with
      | .next retry _ =>
        let (r', o) := r.next retry false cap
        (.out o, r'.isFinished) :: Reader.answers cap r' cs
      | .ack b =>
        let (r', n) := r.free b
        (.freed n, r'.isFinished) :: Reader.answers cap r' cs

/-- **C09**, hostile peers: the two windowed readers agree on every history whatever the
acknowledgement numbers and for any window size, until completion. -/
theorem c09_multi_seek_any_acks (file : Bytes) (bs W cap : Nat) (hbs : 0 < bs) (hcap : bs ≤ cap)
    (ops : List Op) :
    Reader.answers cap (Reader.new .multi file bs W) ops =
      Reader.answers cap (Reader.new .seek file bs W) ops := by
  have key : ∀ (ops : List Op) (m : Mapper) (s : MultiR) (s2 : SeekR) (w : Window),
      MultiSim file bs W m s w → SeekSim file bs W m s2 w →
      Reader.answers cap (.multi s) ops = Reader.answers cap (.seek s2) ops := by
    intro ops
    induction ops with
    | nil => intros; rfl
    | cons op cs ih =>
      intro m s s2 w h h'
      simp only [Reader.answers, Reader.isFinished, h.finished, h'.finished]
      by_cases hf : Window.finished file bs w
      · simp [hf]
      · simp only [hf, decide_false, Bool.false_eq_true, if_false]
        cases op with
        | next retry fail =>
          simp only [Reader.next]
          rcases h.next hbs retry false cap hcap with ⟨h1, -⟩ | ⟨h2, h3⟩
          · simp at h1
          rcases h'.next hbs retry false cap hcap with ⟨h1, -⟩ | ⟨h2', h3'⟩
          · simp at h1
          simp only [h2, h2', h3.finished, h3'.finished, ih _ _ _ _ h3 h3']
        | ack b =>
          simp only [Reader.free]
          obtain ⟨f1, f2⟩ := h.free_step hbs b
          obtain ⟨f1', f2'⟩ := h'.free hbs b (Or.inl hf)
          simp only [f1, f1', f2.finished, f2'.finished, ih _ _ _ _ f2 f2']
  exact key ops _ _ _ _ (MultiSim.init file bs W) (SeekSim.init file bs W)

/-! ### Witnesses -/

/-- Non-vacuity of C06-C09: a transfer of 5 bytes in blocks of 2 with a lost first window. -/
def sampleCalls : List Call :=
  [.next false false, .next false false, .next false false, .next true false, .ack 1,
   .next false false, .next false false, .ack 3, .next false false, .ack 2]

example : Reader.trace 2 (Reader.new .seek [1, 2, 3, 4, 5] 2 2) sampleCalls =
    [⟨.next false false, .out (.block ⟨1, 1, [1, 2], false⟩), false⟩,
     ⟨.next false false, .out (.block ⟨2, 2, [3, 4], false⟩), false⟩,
     ⟨.next false false, .out .none, false⟩,
     ⟨.next true false, .out (.block ⟨1, 1, [1, 2], true⟩), false⟩,
     ⟨.ack 1, .freed (some 2), false⟩,
     ⟨.next false false, .out (.block ⟨2, 2, [3, 4], true⟩), false⟩,
     ⟨.next false false, .out (.block ⟨3, 3, [5], false⟩), false⟩,
     ⟨.ack 3, .freed (some 3), true⟩,
     ⟨.next false false, .out .none, true⟩,
     ⟨.ack 2, .freed (some 0), true⟩] := by decide

example : Legit 0 0 (Reader.trace 2 (Reader.new .multi [1, 2, 3, 4, 5] 2 2) sampleCalls) := by
  have : Reader.trace 2 (Reader.new .multi [1, 2, 3, 4, 5] 2 2) sampleCalls =
    Reader.trace 2 (Reader.new .seek [1, 2, 3, 4, 5] 2 2) sampleCalls := by decide
  rw [this]
  simp [sampleCalls, Legit, Reader.trace, Reader.new, Reader.next, SeekR.next, SeekR.new,
    SeekR.isFinished, FileR.read, FileR.seek, Reader.free, SeekR.free, Reader.isFinished,
    Mapper.new, Mapper.index, Mapper.announce, Mapper.inCurrent, blockOf]

/-- Finding: after the seeking reader has finished, an acknowledgement naming a later block makes the
`usize` subtraction in `free_block` underflow (a panic in a debug build), while the in-memory reader
answers 0. -/
theorem c09_seek_free_underflow_after_finish :
    ((((SeekR.new [7] 2 2).next false false 2).1.free 1).1.free 2).2 = none ∧
    ((((MultiR.new [7] 2 2).next false false 2).1.free 1).1.free 2).2 = 0 := by decide

/-- Finding: an acknowledgement for a block never sent confirms the whole outstanding window, so a
windowed sender reports success although nothing has been received; the single block reader ignores
such an acknowledgement. -/
theorem c08_future_ack_confirms_everything :
    let r := ((SeekR.new [7] 2 2).next false false 2).1
    (r.free 50).2 = some 1 ∧ (r.free 50).1.isFinished = true ∧
    ((((SingleR.new [7] 2).next false false 2).1.free 50).1.isFinished = false) := by decide

end Tftp

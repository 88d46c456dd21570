import Verif.Bytes
import Verif.BlockMapper
/-
Model of /repo/src/writers/single_block_writer.rs and C10.
-/
namespace Tftp

/-- src/writers/single_block_writer.rs:10-14; `out` is the content passed to the file so far. -/
structure Writer where
  out : Bytes
  mapper : Mapper
  written : Nat
deriving DecidableEq, Repr

/-- src/writers/single_block_writer.rs:17-23 `new` on an empty file. -/
def Writer.new : Writer := ⟨[], Mapper.new, 0⟩

/-- Result of `write_block`: src/writers/block_writer.rs:3-5, src/error.rs (`StorageError`,
`ExistingBlock { current, current_index }`). -/
inductive WRes
  | ok (size index : Nat)
  | already (block index : Nat)
  | expected (block index : Nat)
  | ioErr
deriving DecidableEq, Repr

/-- Behaviour of `Write::write` on the underlying file: everything is taken, at most `k` bytes are
taken (a short write), or an I/O error. -/
inductive WriteIo
  | all
  | upTo (k : Nat)
  | err
deriving DecidableEq, Repr

/-- The bytes taken by the file. -/
def WriteIo.taken : WriteIo → Bytes → Option Bytes
  | .all, d => some d
  | .upTo k, d => some (d.take k)
  | .err, _ => none

/-- src/writers/single_block_writer.rs:30-53 `write_block`. -/
def Writer.writeBlock (s : Writer) (block : Nat) (data : Bytes) (io : WriteIo) : Writer × WRes :=
  let (m, provided) := s.mapper.index block
  let s := { s with mapper := m }
  let expected := s.written + 1
  if provided < expected then (s, .already (blockOf s.written) s.written)
  else if provided > expected then (s, .expected (blockOf s.written) s.written)
  else
    match io.taken data with
    | none => (s, .ioErr)
    | some d =>
      ({ s with out := s.out ++ d, written := expected }, .ok d.length expected)

/-- A received data packet and the behaviour of the file system for it. -/
structure Recv where
  block : Nat
  data : Bytes
  io : WriteIo
deriving DecidableEq, Repr

/-- Run the writer over received packets: (packet, result, file content afterwards). -/
def Writer.trace : Writer → List Recv → List (Recv × WRes × Bytes)
  | _, [] => []
  | s, r :: rs =>
    let (s', res) := s.writeBlock r.block r.data r.io
    (r, res, s'.out) :: Writer.trace s' rs

/-- Specification: the file only grows, by the payload of the block which is next in order; `n`
blocks and the bytes `f` have been stored so far. -/
def Spec.WriteOk : (n : Nat) → (f : Bytes) → List (Recv × WRes × Bytes) → Prop
  | _, _, [] => True
  | n, f, (r, res, f') :: rest =>
    match res with
    | .ok size index =>
      index = n + 1 ∧ r.block = (n + 1) % 65536 ∧
      ((r.io = .all ∧ f' = f ++ r.data ∧ size = r.data.length) ∨
       (∃ k, r.io = .upTo k ∧ f' = f ++ r.data.take k ∧ size = min k r.data.length)) ∧
      Spec.WriteOk (n + 1) f' rest
    | .already b i | .expected b i =>
      f' = f ∧ i = n ∧ b = n % 65536 ∧ Spec.WriteOk n f rest
    | .ioErr => f' = f ∧ r.block = (n + 1) % 65536 ∧ r.io = .err ∧ Spec.WriteOk n f rest

/-- The mapper never changes the low 16 bits. -/
theorem Mapper.index_mod (m : Mapper) (b : Nat) (hc : 1 ≤ m.cur) (hn : m.cur ≤ m.next)
    (hb : b < 65536) :
    (m.index b).2 % 65536 = b ∧ 1 ≤ (m.index b).1.cur ∧ (m.index b).1.cur ≤ (m.index b).1.next := by
  have key : ∀ m : Mapper, 1 ≤ m.cur → m.inCurrent b % 65536 = b := by
    intro m h1
    simp only [Mapper.inCurrent]
    obtain ⟨k, hk⟩ : ∃ k, m.cur = k + 1 := ⟨m.cur - 1, by omega⟩
    simp only [hk, Nat.add_sub_cancel]
    split <;> omega
  have ha : 1 ≤ (m.announce b).cur ∧ (m.announce b).cur ≤ (m.announce b).next := by
    unfold Mapper.announce
    split
    · exact ⟨hc, Nat.le_succ_of_le hn⟩
    · exact ⟨hc, hn⟩
  unfold Mapper.index
  generalize m.announce b = m' at ha
  obtain ⟨h1, h2⟩ := ha
  simp only
  split
  · split
    · simp only; omega
    · split
      · refine ⟨key _ (by simp), by simp, ?_⟩
        simp only; omega
      · exact ⟨key _ h1, h1, h2⟩
  · exact ⟨key _ h1, h1, h2⟩

/-- **C10**: after any sequence of received data packets — duplicated, reordered, stale, from the
future, forged — the file content is the concatenation of the payloads of blocks 1, 2, .., n, each
stored once and in order; anything else is reported and leaves the file alone. -/
theorem c10_writer_in_order (rs : List Recv) (h : ∀ r ∈ rs, r.block < 65536) :
    Spec.WriteOk 0 [] (Writer.new.trace rs) := by
  have key : ∀ (rs : List Recv) (s : Writer), (∀ r ∈ rs, r.block < 65536) → 1 ≤ s.mapper.cur →
      s.mapper.cur ≤ s.mapper.next → Spec.WriteOk s.written s.out (s.trace rs) := by
    intro rs
    induction rs with
    | nil => intros; trivial
    | cons r rs ih =>
      intro s h hc hn
      have hb := h r (by simp)
      have hr : ∀ r ∈ rs, r.block < 65536 := fun r hr => h r (by simp [hr])
      obtain ⟨e1, e2, e3⟩ := s.mapper.index_mod r.block hc hn hb
      simp only [Writer.trace, Writer.writeBlock]
      generalize s.mapper.index r.block = mi at *
      obtain ⟨m, i⟩ := mi
      simp only at *
      split
      · exact ⟨rfl, rfl, blockOf_eq _, ih ⟨s.out, m, s.written⟩ hr e2 e3⟩
      · split
        · exact ⟨rfl, rfl, blockOf_eq _, ih ⟨s.out, m, s.written⟩ hr e2 e3⟩
        · have hi : i = s.written + 1 := by omega
          subst hi
          cases hio : r.io with
          | err => exact ⟨rfl, e1.symm, hio, ih ⟨s.out, m, s.written⟩ hr e2 e3⟩
          | all =>
            simp only [Spec.WriteOk, WriteIo.taken]
            refine ⟨trivial, e1.symm, Or.inl ⟨hio, by simp⟩, ?_⟩
            exact ih ⟨s.out ++ r.data, m, s.written + 1⟩ hr e2 e3
          | upTo k =>
            simp only [Spec.WriteOk, WriteIo.taken]
            refine ⟨trivial, e1.symm, Or.inr ⟨k, hio, rfl, by simp⟩, ?_⟩
            exact ih ⟨s.out ++ r.data.take k, m, s.written + 1⟩ hr e2 e3
  exact key rs Writer.new h (by decide) (by decide)

/-- **C10**, in terms of true block indices: when every received block is within 10000 of the newest
one, exactly the next block is stored, earlier ones are reported as already written and later ones as
unexpected. -/
def Spec.WriteExact : (n : Nat) → List (Nat × WRes) → Prop
  | _, [] => True
  | n, (t, res) :: rest =>
    (t = n + 1 ∧ (∃ size, res = .ok size (n + 1)) ∧ Spec.WriteExact (n + 1) rest) ∨
    (t ≤ n ∧ res = .already (n % 65536) n ∧ Spec.WriteExact n rest) ∨
    (n + 1 < t ∧ res = .expected (n % 65536) n ∧ Spec.WriteExact n rest)

theorem c10_exactly_next_block_stored (ts : List (Nat × Bytes))
    (h : Spec.Near 10000 0 (ts.map (·.1))) :
    Spec.WriteExact 0 ((ts.map (·.1)).zip ((Writer.new.trace
      (ts.map fun p => ⟨p.1 % 65536, p.2, .all⟩)).map fun x => x.2.1)) := by
  have key : ∀ (ts : List (Nat × Bytes)) (s : Writer) (M : Nat), s.mapper.Inv M →
      Spec.Near 10000 M (ts.map (·.1)) →
      Spec.WriteExact s.written ((ts.map (·.1)).zip ((s.trace
        (ts.map fun p => ⟨p.1 % 65536, p.2, .all⟩)).map fun x => x.2.1)) := by
    intro ts
    induction ts with
    | nil => intros; trivial
    | cons p ts ih =>
      intro s M hm hn
      simp only [List.map_cons, Spec.Near] at hn
      obtain ⟨h1, h2, h3⟩ := hn
      obtain ⟨e1, e2⟩ := s.mapper.index_step M p.1 hm h1 h2
      simp only [List.map_cons, Writer.trace, Writer.writeBlock, List.zip_cons_cons, WriteIo.taken]
      generalize s.mapper.index (p.1 % 65536) = mi at *
      obtain ⟨m, i⟩ := mi
      simp only at *
      subst e1
      simp only [Spec.WriteExact]
      split
      · right; left
        exact ⟨by omega, by rw [blockOf_eq], ih ⟨s.out, m, s.written⟩ _ e2 h3⟩
      · split
        · right; right
          exact ⟨by omega, by rw [blockOf_eq], ih ⟨s.out, m, s.written⟩ _ e2 h3⟩
        · left
          refine ⟨by omega, ⟨_, rfl⟩, ?_⟩
          exact ih ⟨_, m, s.written + 1⟩ _ e2 h3
  exact key ts Writer.new 0 Mapper.inv_new h

example : Writer.new.trace [⟨2, [9], WriteIo.all⟩, ⟨1, [7, 8], WriteIo.all⟩, ⟨1, [5], WriteIo.all⟩, ⟨2, [9], WriteIo.err⟩,
      ⟨2, [9], WriteIo.all⟩] =
    [(⟨2, [9], WriteIo.all⟩, .expected 0 0, []), (⟨1, [7, 8], WriteIo.all⟩, .ok 2 1, [7, 8]),
     (⟨1, [5], WriteIo.all⟩, .already 1 1, [7, 8]), (⟨2, [9], WriteIo.err⟩, .ioErr, [7, 8]),
     (⟨2, [9], WriteIo.all⟩, .ok 1 2, [7, 8, 9])] := by decide

example : Spec.Near 10000 0 ([(2, [9]), (1, [7]), (3, [1])].map (·.1) : List Nat) := by
  simp [Spec.Near]

/-- Finding: `write` may be short (e.g. a nearly full disk); the writer does not retry, so the rest of
the block is lost although it counts as stored. -/
theorem c10_short_write_loses_bytes :
    Writer.new.trace [⟨1, [1, 2, 3], WriteIo.upTo 1⟩, ⟨2, [4], WriteIo.all⟩] =
      [(⟨1, [1, 2, 3], WriteIo.upTo 1⟩, .ok 1 1, [1]), (⟨2, [4], WriteIo.all⟩, .ok 1 2, [1, 4])] := by decide

end Tftp

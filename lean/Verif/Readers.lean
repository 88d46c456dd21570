import Verif.Bytes
import Verif.BlockMapper
/-
Model of the three block readers of /repo/src/readers: single_block_reader.rs,
multiple_block_reader.rs, multiple_block_seek_reader.rs.

Simplifications:
* the underlying `Read`/`Seek` object is a regular file (`FileR`): a read returns
  `min requested remaining` bytes, or (flag `fail`) an I/O error without moving the position
  (this includes `WouldBlock` of std-binary/src/blocking_reader.rs).
* the output buffer is represented by its length `cap`; the bytes written to it are returned.
* block indices (`u64`) are `Nat`.
-/
namespace Tftp

/-- A file opened for reading (`std::fs::File` / `Cursor`): content and position. -/
structure FileR where
  file : Bytes
  pos : Nat
deriving DecidableEq, Repr

/-- `Read::read` with a buffer of `n` bytes. `none` = I/O error. -/
def FileR.read (r : FileR) (n : Nat) (fail : Bool) : Option (Bytes × FileR) :=
  if fail then none
  else
    let d := (r.file.drop r.pos).take n
    some (d, { r with pos := r.pos + d.length })

/-- `Seek::seek(SeekFrom::Start(p))`. -/
def FileR.seek (r : FileR) (p : Nat) : FileR := { r with pos := p }

/-- src/readers/block_reader.rs:3-9 `Block`, together with the payload placed in the buffer. -/
structure Block where
  block : Nat
  index : Nat
  data : Bytes
  retry : Bool
deriving DecidableEq, Repr

/-- Result of `BlockReader::next`. -/
inductive NextOut
  | none
  | block (b : Block)
  | ioErr
  | badBuffer
deriving DecidableEq, Repr

/-! ### SingleBlockReader -/

/-- src/readers/single_block_reader.rs:12-21. -/
structure SingleR where
  reader : FileR
  mapper : Mapper
  blockRead : Nat
  bs : Nat
  last : Option Nat
  buffer : Bytes
  finished : Bool

/-- src/readers/single_block_reader.rs:23-35 `new`. -/
def SingleR.new (file : Bytes) (bs : Nat) : SingleR :=
  ⟨⟨file, 0⟩, Mapper.new, 0, bs, none, List.replicate bs 0, false⟩

/-- src/readers/single_block_reader.rs:99-101 `is_finished`. -/
def SingleR.isFinished (s : SingleR) : Bool := s.last.isNone && s.finished

/-- src/readers/single_block_reader.rs:41-90 `next`. -/
def SingleR.next (s : SingleR) (retry fail : Bool) (cap : Nat) : SingleR × NextOut :=
  if s.isFinished then (s, .none)
  else if s.last.isSome then
    if retry then
      if s.buffer.length ≤ cap then
        (s, .block ⟨blockOf s.blockRead, s.blockRead, s.buffer, true⟩)
      else (s, .badBuffer)
    else (s, .none)
  else
    match s.reader.read s.buffer.length fail with
    | none => (s, .ioErr)
    | some (d, r) =>
      let s := { s with reader := r, buffer := d }
      if d.length ≤ cap then
        let s := { s with blockRead := s.blockRead + 1, last := some d.length }
        let s := if d.length < s.bs then { s with finished := true } else s
        (s, .block ⟨blockOf s.blockRead, s.blockRead, d, false⟩)
      else (s, .badBuffer)

/-- src/readers/single_block_reader.rs:92-97 `free_block`. -/
def SingleR.free (s : SingleR) (block : Nat) : SingleR × Nat :=
  let (m, i) := s.mapper.index block
  let s := { s with mapper := m }
  if s.blockRead ≠ i then (s, 0)
  else ({ s with last := none }, s.last.getD 0)

/-! ### MultipleBlockReader -/

/-- src/readers/multiple_block_reader.rs:170-180 `Buffer`. -/
structure Slot where
  data : Bytes
  index : Option Nat
deriving DecidableEq, Repr

/-- src/readers/multiple_block_reader.rs:15-24. -/
structure MultiR where
  reader : FileR
  mapper : Mapper
  blockRead : Nat
  bs : Nat
  slots : List Slot
  max : Nat
  finished : Bool

/-- src/readers/multiple_block_reader.rs:26-42 `new`. -/
def MultiR.new (file : Bytes) (bs max : Nat) : MultiR :=
  ⟨⟨file, 0⟩, Mapper.new, 0, bs, [], max, false⟩

/-- `blocks.iter().filter(|b| b.index.is_some())` -/
def MultiR.live (s : MultiR) : List Slot := s.slots.filter fun b => b.index.isSome

/-- src/readers/multiple_block_reader.rs:165-167 `is_finished`. -/
def MultiR.isFinished (s : MultiR) : Bool := s.live.length == 0 && s.finished

/-- `min_by` on the index: the first slot with the least index
(src/readers/multiple_block_reader.rs:54-58). -/
def minSlot : List Slot → Option Slot
  | [] => none
  | a :: r => some (r.foldl (fun m b => if (b.index.getD 0) < (m.index.getD 0) then b else m) a)

/-- `iter_mut().find(|b| b.index.is_none())` or push of a fresh buffer, then replacement of that
slot by `new` (src/readers/multiple_block_reader.rs:102-109 and the later updates through
`block_buffer`). -/
def putSlot (new : Slot) : List Slot → List Slot
  | [] => [new]
  | b :: r => if b.index.isNone then new :: r else b :: putSlot new r

/-- The buffer which is going to be filled: the first free slot's data or a fresh block
(src/readers/multiple_block_reader.rs:102-109). -/
def freeData (bs : Nat) (l : List Slot) : Bytes :=
  match l.find? (fun b => b.index.isNone) with
  | some b => b.data
  | none => List.replicate bs 0

/-- src/readers/multiple_block_reader.rs:48-133 `next`. -/
def MultiR.next (s : MultiR) (retry fail : Bool) (cap : Nat) : MultiR × NextOut :=
  if s.isFinished then (s, .none)
  else
    match (if retry then minSlot s.live else none) with
    | some b =>
      let s := { s with blockRead := b.index.getD 0 }
      if b.data.length ≤ cap then
        (s, .block ⟨blockOf s.blockRead, s.blockRead, b.data, true⟩)
      else (s, .badBuffer)
    | none =>
      let index := s.blockRead + 1
      match s.slots.find? (fun b => b.index == some index) with
      | some b =>
        if b.data.length ≤ cap then
          ({ s with blockRead := index }, .block ⟨blockOf index, index, b.data, true⟩)
        else (s, .badBuffer)
      | none =>
        if s.finished || s.live.length ≥ s.max then (s, .none)
        else
          let buf := freeData s.bs s.slots
          match s.reader.read buf.length fail with
          | none => ({ s with slots := putSlot ⟨buf, none⟩ s.slots }, .ioErr)
          | some (d, r) =>
            if d.length ≤ cap then
              ({ s with
                  reader := r
                  slots := putSlot ⟨d, some index⟩ s.slots
                  blockRead := index
                  finished := s.finished || decide (d.length < s.bs) },
                .block ⟨blockOf index, index, d, false⟩)
            else ({ s with reader := r, slots := putSlot ⟨d, none⟩ s.slots }, .badBuffer)

/-- Is the slot freed by an acknowledgement of `index`
(src/readers/multiple_block_reader.rs:138-144). -/
def freed (index : Nat) (b : Slot) : Bool :=
  match b.index with
  | some i => decide (i ≤ index)
  | none => false

/-- src/readers/multiple_block_reader.rs:141-163 `free_block`. -/
def MultiR.free (s : MultiR) (block : Nat) : MultiR × Nat :=
  let (m, index) := s.mapper.index block
  let gone := s.slots.filter (freed index)
  let size := gone.foldl (fun n b => n + b.data.length) 0
  let last := gone.foldl (fun (l : Option Nat) b => Max.max l b.index) none
  let slots := s.slots.map fun b => if freed index b then { b with index := none } else b
  let s := { s with mapper := m, slots := slots }
  match last with
  | some i => ({ s with blockRead := i }, size)
  | none => (s, size)

/-! ### MultipleBlockSeekReader -/

/-- src/readers/multiple_block_seek_reader.rs:11-22. -/
structure SeekR where
  reader : FileR
  mapper : Mapper
  blockRead : Nat
  confirmed : Nat
  current : Nat
  bs : Nat
  lastOffset : Nat
  max : Nat
  finishedSize : Option Nat

/-- src/readers/multiple_block_seek_reader.rs:24-38 `new`. -/
def SeekR.new (file : Bytes) (bs max : Nat) : SeekR :=
  ⟨⟨file, 0⟩, Mapper.new, 0, 0, 0, bs, 0, max, none⟩

/-- src/readers/multiple_block_seek_reader.rs:162-164 `is_finished`. -/
def SeekR.isFinished (s : SeekR) : Bool := s.blockRead == s.confirmed && s.finishedSize.isSome

/-- src/readers/multiple_block_seek_reader.rs:44-140 `next`. The buffer must hold a full block
(`buffer.get_mut(..block_size)`). Seeking itself is assumed to succeed. -/
def SeekR.next (s : SeekR) (retry fail : Bool) (cap : Nat) : SeekR × NextOut :=
  if s.isFinished then (s, .none)
  else
    let blockLen := s.blockRead - s.confirmed
    if retry && decide (s.blockRead > s.confirmed) then
      let s := { s with reader := s.reader.seek (s.confirmed * s.bs) }
      if s.bs ≤ cap then
        match s.reader.read s.bs fail with
        | none => (s, .ioErr)
        | some (d, r) =>
          let cur := if s.confirmed > 0 then s.confirmed + 1 else 1
          ({ s with reader := r, current := cur }, .block ⟨blockOf cur, cur, d, true⟩)
      else (s, .badBuffer)
    else
      let index := s.current + 1
      if s.blockRead ≥ index then
        let s := { s with reader := s.reader.seek (s.current * s.bs) }
        if s.bs ≤ cap then
          match s.reader.read s.bs fail with
          | none => (s, .ioErr)
          | some (d, r) =>
            ({ s with reader := r, current := index }, .block ⟨blockOf index, index, d, true⟩)
        else (s, .badBuffer)
      else if s.finishedSize.isSome || decide (blockLen ≥ s.max) then (s, .none)
      else
        let s := if s.reader.pos ≠ s.lastOffset then
            { s with reader := s.reader.seek s.lastOffset } else s
        if s.bs ≤ cap then
          match s.reader.read s.bs fail with
          | none => (s, .ioErr)
          | some (d, r) =>
            ({ s with
                reader := r
                finishedSize := if d.length < s.bs then some d.length else s.finishedSize
                blockRead := index
                current := index
                lastOffset := s.lastOffset + d.length },
              .block ⟨blockOf index, index, d, false⟩)
        else (s, .badBuffer)

/-- src/readers/multiple_block_seek_reader.rs:141-160 `free_block`.  The returned size is `none`
when the `usize` subtraction `size - block_size` underflows (a panic in debug builds, a wrapped
number in release builds). -/
def SeekR.free (s : SeekR) (block : Nat) : SeekR × Option Nat :=
  let (m, index) := s.mapper.index block
  let s := { s with mapper := m }
  if index > s.confirmed then
    let index := if index > s.blockRead then s.blockRead else index
    let size := (index - s.confirmed) * s.bs
    let size := if index = s.blockRead then
        match s.finishedSize with
        | some f => if s.bs ≤ size then some (size - s.bs + f) else none
        | none => some size
      else some size
    ({ s with confirmed := index, current := index }, size)
  else (s, some 0)

end Tftp

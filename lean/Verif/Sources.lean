import Verif.ReaderApi
/-
C71: the block readers over an arbitrary `Read` (`Read + Seek`) object: src/readers/*.rs are generic over it; Readers.lean models them
for a regular file. Here the object is a `Source`; for the source `Source.file` the definitions are those of Readers.lean
(`single_file`, `multi_file`, `seek_file`).
-/
namespace Tftp
open Spec

/-- A `Read + Seek` object with states `σ`; `ι` is what happens to it from outside during a call. `read s n i`: `Read::read` with a buffer of
`n` bytes, `none`: an error. `tell`: `Seek::seek(SeekFrom::Current(0))`, `seek`: `Seek::seek(SeekFrom::Start(p))`, `false`: an error. -/
structure Source (σ ι : Type) where
  read : σ → Nat → ι → σ × Option Bytes
  tell : σ → σ × Option Nat
  seek : σ → Nat → σ × Bool

/-- A regular file, `FileR` (Readers.lean). -/
def Source.file : Source FileR Bool where
  read r n fail := match r.read n fail with
    | none => (r, none)
    | some (d, r) => (r, some d)
  tell r := (r, some r.pos)
  seek r p := (r.seek p, true)

/-! ### SingleBlockReader -/

/-- src/readers/single_block_reader.rs:12-21. -/
structure SingleG (σ : Type) where
  src : σ
  mapper : Mapper
  blockRead : Nat
  bs : Nat
  last : Option Nat
  buffer : Bytes
  finished : Bool

/-- src/readers/single_block_reader.rs:23-35 `new`. -/
def SingleG.new {σ} (src : σ) (bs : Nat) : SingleG σ := ⟨src, Mapper.new, 0, bs, none, List.replicate bs 0, false⟩

/-- src/readers/single_block_reader.rs:99-101 `is_finished`. -/
def SingleG.isFinished {σ} (s : SingleG σ) : Bool := s.last.isNone && s.finished

/-- src/readers/single_block_reader.rs:41-90 `next`. -/
def SingleG.next {σ ι} (S : Source σ ι) (s : SingleG σ) (retry : Bool) (i : ι) (cap : Nat) : SingleG σ × NextOut :=
  if s.isFinished then (s, .none)
  else if s.last.isSome then
    if retry then
      if s.buffer.length ≤ cap then (s, .block ⟨blockOf s.blockRead, s.blockRead, s.buffer, true⟩) else (s, .badBuffer)
    else (s, .none)
  else
    match S.read s.src s.buffer.length i with
    | (r, none) => ({ s with src := r }, .ioErr)
    | (r, some d) =>
      let s := { s with src := r, buffer := d }
      if d.length ≤ cap then
        let s := { s with blockRead := s.blockRead + 1, last := some d.length }
        let s := if d.length < s.bs then { s with finished := true } else s
        (s, .block ⟨blockOf s.blockRead, s.blockRead, d, false⟩)
      else (s, .badBuffer)

/-- src/readers/single_block_reader.rs:92-97 `free_block`. -/
def SingleG.free {σ} (s : SingleG σ) (block : Nat) : SingleG σ × Nat :=
  let (m, i) := s.mapper.index block
  let s := { s with mapper := m }
  if s.blockRead ≠ i then (s, 0)
  else ({ s with last := none }, s.last.getD 0)

/-! ### MultipleBlockReader -/

/-- src/readers/multiple_block_reader.rs:15-24. -/
structure MultiG (σ : Type) where
  src : σ
  mapper : Mapper
  blockRead : Nat
  bs : Nat
  slots : List Slot
  max : Nat
  finished : Bool

/-- src/readers/multiple_block_reader.rs:26-42 `new`. -/
def MultiG.new {σ} (src : σ) (bs max : Nat) : MultiG σ := ⟨src, Mapper.new, 0, bs, [], max, false⟩

def MultiG.live {σ} (s : MultiG σ) : List Slot := s.slots.filter fun b => b.index.isSome

/-- src/readers/multiple_block_reader.rs:165-167 `is_finished`. -/
def MultiG.isFinished {σ} (s : MultiG σ) : Bool := s.live.length == 0 && s.finished

/-- src/readers/multiple_block_reader.rs:48-133 `next`. -/
def MultiG.next {σ ι} (S : Source σ ι) (s : MultiG σ) (retry : Bool) (i : ι) (cap : Nat) : MultiG σ × NextOut :=
  if s.isFinished then (s, .none)
  else
    match (if retry then minSlot s.live else none) with
    | some b =>
      let s := { s with blockRead := b.index.getD 0 }
      if b.data.length ≤ cap then (s, .block ⟨blockOf s.blockRead, s.blockRead, b.data, true⟩) else (s, .badBuffer)
    | none =>
      let index := s.blockRead + 1
      match s.slots.find? (fun b => b.index == some index) with
      | some b =>
        if b.data.length ≤ cap then ({ s with blockRead := index }, .block ⟨blockOf index, index, b.data, true⟩)
        else (s, .badBuffer)
      | none =>
        if s.finished || s.live.length ≥ s.max then (s, .none)
        else
          let buf := freeData s.bs s.slots
          match S.read s.src buf.length i with
          | (r, none) => ({ s with src := r, slots := putSlot ⟨buf, none⟩ s.slots }, .ioErr)
          | (r, some d) =>
            if d.length ≤ cap then
              ({ s with
                  src := r
                  slots := putSlot ⟨d, some index⟩ s.slots
                  blockRead := index
                  finished := s.finished || decide (d.length < s.bs) },
                .block ⟨blockOf index, index, d, false⟩)
            else ({ s with src := r, slots := putSlot ⟨d, none⟩ s.slots }, .badBuffer)

/-- src/readers/multiple_block_reader.rs:141-163 `free_block`. -/
def MultiG.free {σ} (s : MultiG σ) (block : Nat) : MultiG σ × Nat :=
  let (m, index) := s.mapper.index block
  let gone := s.slots.filter (freed index)
  let size := gone.foldl (fun n b => n + b.data.length) 0
  let last := gone.foldl (fun (l : Option Nat) b => Max.max l b.index) none
  let slots := s.slots.map fun b => if freed index b then { b with index := none } else b
  let s := { s with mapper := m, slots := slots }
  match last with
  | some i => ({ s with blockRead := i }, size)
  | none => (s, size)

/-! ### MultipleBlockSeekReader -/

/-- src/readers/multiple_block_seek_reader.rs:11-22. -/
structure SeekG (σ : Type) where
  src : σ
  mapper : Mapper
  blockRead : Nat
  confirmed : Nat
  current : Nat
  bs : Nat
  lastOffset : Nat
  max : Nat
  finishedSize : Option Nat

/-- src/readers/multiple_block_seek_reader.rs:24-38 `new`. -/
def SeekG.new {σ} (src : σ) (bs max : Nat) : SeekG σ := ⟨src, Mapper.new, 0, 0, 0, bs, 0, max, none⟩

/-- src/readers/multiple_block_seek_reader.rs:162-164 `is_finished`. -/
def SeekG.isFinished {σ} (s : SeekG σ) : Bool := s.blockRead == s.confirmed && s.finishedSize.isSome

/-- The two places which read a block again: src/readers/multiple_block_seek_reader.rs:53-79 and 83-103. `p`: where the block is,
`cur`: its index. -/
def SeekG.again {σ ι} (S : Source σ ι) (s : SeekG σ) (p cur : Nat) (i : ι) (cap : Nat) : SeekG σ × NextOut :=
  match S.seek s.src p with
  | (r, false) => ({ s with src := r }, .ioErr)
  | (r, true) =>
    let s := { s with src := r }
    if s.bs ≤ cap then
      match S.read s.src s.bs i with
      | (r, none) => ({ s with src := r }, .ioErr)
      | (r, some d) => ({ s with src := r, current := cur }, .block ⟨blockOf cur, cur, d, true⟩)
    else (s, .badBuffer)

/-- src/readers/multiple_block_seek_reader.rs:111-114: go to the end of what has been read. The error of the first `seek` is
disregarded. -/
def SeekG.toEnd {σ ι} (S : Source σ ι) (s : SeekG σ) : SeekG σ × Bool :=
  match S.tell s.src with
  | (r, none) => ({ s with src := r }, true)
  | (r, some p) =>
    if p ≠ s.lastOffset then
      let (r, ok) := S.seek r s.lastOffset
      ({ s with src := r }, ok)
    else ({ s with src := r }, true)

/-- src/readers/multiple_block_seek_reader.rs:44-140 `next`. -/
def SeekG.next {σ ι} (S : Source σ ι) (s : SeekG σ) (retry : Bool) (i : ι) (cap : Nat) : SeekG σ × NextOut :=
  if s.isFinished then (s, .none)
  else
    let blockLen := s.blockRead - s.confirmed
    if retry && decide (s.blockRead > s.confirmed) then
      s.again S (s.confirmed * s.bs) (if s.confirmed > 0 then s.confirmed + 1 else 1) i cap
    else
      let index := s.current + 1
      if s.blockRead ≥ index then s.again S (s.current * s.bs) index i cap
      else if s.finishedSize.isSome || decide (blockLen ≥ s.max) then (s, .none)
      else
        match s.toEnd S with
        | (s, false) => (s, .ioErr)
        | (s, true) =>
          if s.bs ≤ cap then
            match S.read s.src s.bs i with
            | (r, none) => ({ s with src := r }, .ioErr)
            | (r, some d) =>
              ({ s with
                  src := r
                  finishedSize := if d.length < s.bs then some d.length else s.finishedSize
                  blockRead := index
                  current := index
                  lastOffset := s.lastOffset + d.length },
                .block ⟨blockOf index, index, d, false⟩)
          else (s, .badBuffer)

/-- src/readers/multiple_block_seek_reader.rs:141-160 `free_block`; `none`: underflow (see `SeekR.free`). -/
def SeekG.free {σ} (s : SeekG σ) (block : Nat) : SeekG σ × Option Nat :=
  let (m, index) := s.mapper.index block
  let s := { s with mapper := m }
  if index > s.confirmed then
    let index := if index > s.blockRead then s.blockRead else index
    let size := (index - s.confirmed) * s.bs
    let size := if index = s.blockRead then
        match s.finishedSize with
        | some f => if s.bs ≤ size then some (size - s.bs + f) else none
        | none => some size
      else some size
    ({ s with confirmed := index, current := index }, size)
  else (s, some 0)

/-! ### The trait -/

/-- A reader behind the `BlockReader` trait: src/readers/block_reader.rs:3-20. -/
inductive ReaderG (σ : Type)
  | single (s : SingleG σ)
  | multi (s : MultiG σ)
  | seek (s : SeekG σ)

/-- src/client/sender.rs:342-366 `block_reader`. -/
def ReaderG.new {σ} (k : Kind) (src : σ) (bs W : Nat) : ReaderG σ :=
  match k with
  | .single => .single (SingleG.new src bs)
  | .multi => .multi (MultiG.new src bs W)
  | .seek => .seek (SeekG.new src bs W)

/-- `BlockReader::next` through the trait. -/
def ReaderG.next {σ ι} (S : Source σ ι) (r : ReaderG σ) (retry : Bool) (i : ι) (cap : Nat) : ReaderG σ × NextOut :=
  match r with
  | .single s => let (s, o) := s.next S retry i cap; (.single s, o)
  | .multi s => let (s, o) := s.next S retry i cap; (.multi s, o)
  | .seek s => let (s, o) := s.next S retry i cap; (.seek s, o)

/-- `BlockReader::free_block` through the trait; `none`: integer underflow. -/
def ReaderG.free {σ} (r : ReaderG σ) (block : Nat) : ReaderG σ × Option Nat :=
  match r with
  | .single s => let (s, o) := s.free block; (.single s, some o)
  | .multi s => let (s, o) := s.free block; (.multi s, some o)
  | .seek s => let (s, o) := s.free block; (.seek s, o)

/-- `BlockReader::is_finished` through the trait. -/
def ReaderG.isFinished {σ} : ReaderG σ → Bool
  | .single s => s.isFinished
  | .multi s => s.isFinished
  | .seek s => s.isFinished

/-! ### Regular files -/

def SingleR.gen (s : SingleR) : SingleG FileR := ⟨s.reader, s.mapper, s.blockRead, s.bs, s.last, s.buffer, s.finished⟩
def MultiR.gen (s : MultiR) : MultiG FileR := ⟨s.reader, s.mapper, s.blockRead, s.bs, s.slots, s.max, s.finished⟩
def SeekR.gen (s : SeekR) : SeekG FileR :=
  ⟨s.reader, s.mapper, s.blockRead, s.confirmed, s.current, s.bs, s.lastOffset, s.max, s.finishedSize⟩

def Reader.gen : Reader → ReaderG FileR
  | .single s => .single s.gen
  | .multi s => .multi s.gen
  | .seek s => .seek s.gen

theorem file_read (r : FileR) (n : Nat) (fail : Bool) :
    Source.file.read r n fail = match r.read n fail with
      | none => (r, none)
      | some (d, r) => (r, some d) := rfl

set_option linter.unusedSimpArgs false

theorem single_file (s : SingleR) (retry fail : Bool) (cap : Nat) :
    s.gen.next Source.file retry fail cap = ((s.next retry fail cap).1.gen, (s.next retry fail cap).2) := by
  obtain ⟨sr, sm, sb, sbs, sl, su, sf⟩ := s
  simp +instances only [SingleG.next, SingleR.next, SingleG.isFinished, SingleR.isFinished, SingleR.gen, file_read]
  by_cases h1 : (sl.isNone && sf) = true
  · simp only [h1, Bool.false_eq_true, ↓reduceIte]
  · simp only [h1, Bool.false_eq_true, ↓reduceIte]
    by_cases h2 : sl.isSome = true
    · simp only [h2, Bool.false_eq_true, ↓reduceIte]
      by_cases h3 : retry = true
      · simp only [h3, Bool.false_eq_true, ↓reduceIte]
        by_cases h4 : su.length ≤ cap
        · simp only [h4, Bool.false_eq_true, ↓reduceIte]
        · simp only [h4, Bool.false_eq_true, ↓reduceIte]
      · simp only [h3, Bool.false_eq_true, ↓reduceIte]
    · simp only [h2, Bool.false_eq_true, ↓reduceIte]
      cases FileR.read sr su.length fail with
      | none => rfl
      | some x =>
        obtain ⟨d, r⟩ := x
        simp only
        by_cases h1 : d.length ≤ cap
        · by_cases h2 : d.length < sbs
          · simp only [h1, h2, Bool.false_eq_true, ↓reduceIte]
          · simp only [h1, h2, Bool.false_eq_true, ↓reduceIte]
        · simp only [h1, Bool.false_eq_true, ↓reduceIte]

theorem multi_file (s : MultiR) (retry fail : Bool) (cap : Nat) :
    s.gen.next Source.file retry fail cap = ((s.next retry fail cap).1.gen, (s.next retry fail cap).2) := by
  obtain ⟨sr, sm, sb, sbs, sl, su, sf⟩ := s
  simp +instances only [MultiG.next, MultiR.next, MultiG.isFinished, MultiR.isFinished, MultiG.live, MultiR.live, MultiR.gen, file_read]
  by_cases h1 : ((sl.filter fun b => b.index.isSome).length == 0 && sf) = true
  · simp only [h1, Bool.false_eq_true, ↓reduceIte]
  · simp only [h1, Bool.false_eq_true, ↓reduceIte]
    cases (if retry = true then minSlot (sl.filter fun b => b.index.isSome) else none) with
    | some b =>
      simp only
      by_cases h4 : b.data.length ≤ cap
      · simp only [h4, Bool.false_eq_true, ↓reduceIte]
      · simp only [h4, Bool.false_eq_true, ↓reduceIte]
    | none =>
      simp only
      cases sl.find? (fun b => b.index == some (sb + 1)) with
      | some b =>
        simp only
        by_cases h4 : b.data.length ≤ cap
        · simp only [h4, Bool.false_eq_true, ↓reduceIte]
        · simp only [h4, Bool.false_eq_true, ↓reduceIte]
      | none =>
        simp only
        cases sf
        · by_cases h2 : (sl.filter fun b => b.index.isSome).length ≥ su
          · simp only [h2, decide_true, Bool.or_true, ↓reduceIte]
          · simp only [h2, decide_false, Bool.or_false, Bool.false_eq_true, ↓reduceIte]
            cases FileR.read sr (freeData sbs sl).length fail with
            | none => rfl
            | some x =>
              obtain ⟨d, r⟩ := x
              simp only
              by_cases h4 : d.length ≤ cap
              · simp only [h4, Bool.false_eq_true, ↓reduceIte]; rfl
              · simp only [h4, Bool.false_eq_true, ↓reduceIte]
        · simp only [Bool.true_or, ↓reduceIte]

theorem seek_file (s : SeekR) (retry fail : Bool) (cap : Nat) :
    s.gen.next Source.file retry fail cap = ((s.next retry fail cap).1.gen, (s.next retry fail cap).2) := by
  obtain ⟨⟨f, p⟩, sm, sr, sc, su, sb, sl, sx, sf⟩ := s
  simp +instances only [SeekG.next, SeekR.next, SeekG.isFinished, SeekR.isFinished, SeekR.gen, SeekG.again, SeekG.toEnd, Source.file, FileR.seek, FileR.read]
  by_cases h1 : (sr == sc && sf.isSome) = true
  · simp only [h1, Bool.false_eq_true, ↓reduceIte]
  · simp only [h1, Bool.false_eq_true, ↓reduceIte]
    cases retry <;> by_cases h2 : sr > sc <;> by_cases h3 : sr ≥ su + 1 <;> by_cases h4 : sr - sc ≥ sx <;> cases sf <;>
      by_cases hc : sb ≤ cap <;> by_cases hp : p = sl <;>
      simp only [h2, h3, h4, hc, hp, Option.isSome, decide_true, decide_false, Bool.or_true, Bool.or_false, Bool.and_true, Bool.and_false, Bool.false_eq_true, ne_eq,
        not_true_eq_false, not_false_eq_true, ↓reduceIte] <;> cases fail <;> rfl

/-- For a regular file the generic readers are those of Readers.lean, so what is proved about them (C06 to C09) is about these. -/
theorem reader_file (r : Reader) (retry fail : Bool) (cap : Nat) (block : Nat) :
    r.gen.next Source.file retry fail cap = ((r.next retry fail cap).1.gen, (r.next retry fail cap).2) ∧
    r.gen.free block = ((r.free block).1.gen, (r.free block).2) ∧ r.gen.isFinished = r.isFinished := by
  cases r with
  | single s =>
    refine ⟨?_, ?_, rfl⟩
    · simp only [Reader.gen, ReaderG.next, single_file, Reader.next]
    · simp only [Reader.gen, ReaderG.free, SingleG.free, Reader.free, SingleR.free, SingleR.gen]
      by_cases h : s.blockRead ≠ (s.mapper.index block).2
      · simp only [if_pos h]
      · simp only [if_neg h]
  | multi s =>
    refine ⟨?_, ?_, rfl⟩
    · simp only [Reader.gen, ReaderG.next, multi_file, Reader.next]
    · simp only [Reader.gen, ReaderG.free, MultiG.free, Reader.free, MultiR.free, MultiR.gen]
      cases (s.slots.filter (freed (s.mapper.index block).2)).foldl (fun (l : Option Nat) b => Max.max l b.index) none <;> rfl
  | seek s =>
    refine ⟨?_, ?_, rfl⟩
    · simp only [Reader.gen, ReaderG.next, seek_file, Reader.next]
    · simp only [Reader.gen, ReaderG.free, SeekG.free, Reader.free, SeekR.free, SeekR.gen]
      by_cases h : (s.mapper.index block).2 > s.confirmed
      · simp only [if_pos h]
        cases s.finishedSize <;> rfl
      · simp only [if_neg h]

/-! ### Sources which deliver a file block by block -/

/-- The source delivers `file` in blocks of `bs` bytes: `At k`, its state when `k` blocks have been read. Each further read with a buffer of `bs` bytes
gives the next block, or fails and can be repeated. -/
structure Delivers {σ ι} (S : Source σ ι) (file : Bytes) (bs : Nat) (At : Nat → σ → Prop) (Ok : σ → ι → Prop) : Prop where
  step : ∀ {k s}, At k s → k < nblocks file bs → ∀ i, Ok s i →
    ((S.read s bs i).2 = none ∧ At k (S.read s bs i).1) ∨
    ((S.read s bs i).2 = some (block file bs (k + 1)) ∧ At (k + 1) (S.read s bs i).1)

/-- The source cannot seek: an attempt fails and changes nothing. -/
structure NoSeek {σ ι} (S : Source σ ι) : Prop where
  seek : ∀ s p, S.seek s p = (s, false)
  tell : ∀ s, S.tell s = (s, none)

/-- Does the next read of a block fail? -/
def Source.fails {σ ι} (S : Source σ ι) (s : σ) (bs : Nat) (i : ι) : Bool := (S.read s bs i).2.isNone

/-- The generic reader and the one of a regular file are in the same state, except for source and file. -/
structure SingleRel {σ} (file : Bytes) (bs : Nat) (At : Nat → σ → Prop) (g : SingleG σ) (s : SingleR) : Prop where
  mapper : g.mapper = s.mapper
  blockRead : g.blockRead = s.blockRead
  bs_eq : g.bs = bs ∧ s.bs = bs
  last : g.last = s.last
  buffer : g.buffer = s.buffer
  fin : g.finished = s.finished ∧ (s.finished = true ↔ s.blockRead = nblocks file bs)
  full : s.finished = false → s.buffer.length = bs
  src : At s.blockRead g.src
  file_eq : s.reader = ⟨file, bytesIn file bs s.blockRead⟩
  le : s.blockRead ≤ nblocks file bs

theorem file_block {file : Bytes} {bs k : Nat} (hbs : 0 < bs) (hk : k < nblocks file bs) :
    FileR.read ⟨file, bytesIn file bs k⟩ bs false = some (block file bs (k + 1), ⟨file, bytesIn file bs (k + 1)⟩) := by
  rw [FileR.read_block (file := file) (bs := bs) (i := k + 1) rfl (by simp [bytesIn_lt_nblocks _ _ _ hbs hk])]
  simp only [block_length _ _ (k + 1) (by omega), Nat.add_sub_cancel]
  have := bytesIn_mono file bs (Nat.le_add_right k 1)
  rw [show bytesIn file bs k + (bytesIn file bs (k + 1) - bytesIn file bs k) = bytesIn file bs (k + 1) by omega]

theorem block_last {file : Bytes} {bs k : Nat} (hbs : 0 < bs) (hk : k < nblocks file bs) :
    ((block file bs (k + 1)).length < bs ↔ k + 1 = nblocks file bs) ∧ ((block file bs (k + 1)).length = bs ↔ k + 1 ≠ nblocks file bs) := by
  have h1 := block_short_iff file bs (k + 1) hbs (by omega) (by omega)
  have h2 := block_length_le file bs (k + 1)
  refine ⟨h1, ?_⟩
  rw [Ne, ← h1]
  omega

theorem SingleRel.next {σ ι} {S : Source σ ι} {file : Bytes} {bs : Nat} {At : Nat → σ → Prop} {Ok : σ → ι → Prop} (hD : Delivers S file bs At Ok) (hbs : 0 < bs)
    {g : SingleG σ} {s : SingleR} (h : SingleRel file bs At g s) (retry : Bool) (i : ι) (hok : Ok g.src i) (cap : Nat) (hcap : bs ≤ cap) :
    (g.next S retry i cap).2 = (s.next retry (S.fails g.src bs i) cap).2 ∧
    SingleRel file bs At (g.next S retry i cap).1 (s.next retry (S.fails g.src bs i) cap).1 := by
  obtain ⟨e1, e2, e3, e4, e5, e6, e7, e8, e9, e10⟩ := h
  obtain ⟨gs, gm, gr, gb', gl, gu, gf⟩ := g
  obtain ⟨sr, sm, sb, gb, sl, su, sf⟩ := s
  simp only at e1 e2 e3 e4 e5 e6 e7 e8 e9 e10
  obtain ⟨rfl, rfl⟩ := e3
  obtain ⟨rfl, e6⟩ := e6
  subst e1 e2 e4 e5 e9
  unfold SingleG.next SingleR.next SingleG.isFinished SingleR.isFinished
  simp only
  by_cases hf : (gl.isNone && gf) = true
  · rw [if_pos hf, if_pos hf]
    exact ⟨rfl, rfl, rfl, ⟨rfl, rfl⟩, rfl, rfl, ⟨rfl, e6⟩, e7, e8, rfl, e10⟩
  · rw [if_neg hf, if_neg hf]
    by_cases hl : gl.isSome = true
    · rw [if_pos hl, if_pos hl]
      have base : SingleRel file gb At ⟨gs, gm, gr, gb, gl, gu, gf⟩ ⟨⟨file, bytesIn file gb gr⟩, gm, gr, gb, gl, gu, gf⟩ :=
        ⟨rfl, rfl, ⟨rfl, rfl⟩, rfl, rfl, ⟨rfl, e6⟩, e7, e8, rfl, e10⟩
      split
      · split
        · exact ⟨rfl, base⟩
        · exact ⟨rfl, base⟩
      · exact ⟨rfl, base⟩
    · rw [if_neg hl, if_neg hl]
      have hff : gf = false := by
        cases gl with
        | none => simpa using hf
        | some x => exact absurd rfl hl
      subst hff
      have hk : gr < nblocks file gb := by
        have : ¬ gr = nblocks file gb := fun h => by simpa using e6.mpr h
        omega
      have hb := e7 rfl
      have hgl : gl = none := by
        cases gl with
        | none => rfl
        | some x => exact absurd rfl hl
      subst hgl
      rw [hb]
      rcases hD.step e8 hk i hok with ⟨h1, h2⟩ | ⟨h1, h2⟩
      · have hfl : S.fails gs gb i = true := by simp [Source.fails, h1]
        rw [hfl]
        generalize S.read gs gb i = x at h1 h2
        obtain ⟨x1, x2⟩ := x
        simp only at h1 h2
        subst h1
        simp only [FileR.read, if_true]
        exact ⟨trivial, rfl, rfl, ⟨rfl, rfl⟩, rfl, rfl, ⟨rfl, e6⟩, e7, h2, rfl, e10⟩
      · have hfl : S.fails gs gb i = false := by simp [Source.fails, h1]
        rw [hfl, file_block hbs hk]
        generalize S.read gs gb i = x at h1 h2
        obtain ⟨x1, x2⟩ := x
        simp only at h1 h2
        subst h1
        have hle := block_length_le file gb (gr + 1)
        have hb2 := block_last hbs hk
        have hfit : (block file gb (gr + 1)).length ≤ cap := Nat.le_trans hle hcap
        simp only [if_pos hfit]
        by_cases hs : (block file gb (gr + 1)).length < gb
        · simp only [if_pos hs]
          refine ⟨trivial, rfl, rfl, ⟨rfl, rfl⟩, rfl, rfl, ⟨rfl, ?_⟩, (fun h => by cases h), h2, rfl, hk⟩
          exact iff_of_true rfl (hb2.1.mp hs)
        · simp only [if_neg hs]
          refine ⟨trivial, rfl, rfl, ⟨rfl, rfl⟩, rfl, rfl, ⟨rfl, ?_⟩, (fun _ => by simp only; omega), h2, rfl, hk⟩
          exact iff_of_false (by simp) (fun h => hs (hb2.1.mpr h))

theorem SingleRel.free {σ} {file : Bytes} {bs : Nat} {At : Nat → σ → Prop} {g : SingleG σ} {s : SingleR} (h : SingleRel file bs At g s) (blk : Nat) :
    (g.free blk).2 = (s.free blk).2 ∧ SingleRel file bs At (g.free blk).1 (s.free blk).1 := by
  obtain ⟨e1, e2, e3, e4, e5, e6, e7, e8, e9, e10⟩ := h
  unfold SingleG.free SingleR.free
  simp only [e1, e2]
  split
  · exact ⟨rfl, rfl, rfl, e3, e4, e5, e6, e7, e8, e9, e10⟩
  · exact ⟨by rw [e4], rfl, rfl, e3, rfl, e5, e6, e7, e8, e9, e10⟩

/-- The same for the multi block reader; `k` blocks have been read. -/
structure MultiRel {σ} (file : Bytes) (bs : Nat) (At : Nat → σ → Prop) (k : Nat) (g : MultiG σ) (s : MultiR) : Prop where
  mapper : g.mapper = s.mapper
  blockRead : g.blockRead = s.blockRead
  bs_eq : g.bs = bs ∧ s.bs = bs
  slots : g.slots = s.slots
  max : g.max = s.max
  fin : g.finished = s.finished ∧ (s.finished = true ↔ k = nblocks file bs)
  full : s.finished = false → ∀ b ∈ s.slots, b.data.length = bs
  src : At k g.src
  file_eq : s.reader = ⟨file, bytesIn file bs k⟩
  le : k ≤ nblocks file bs

theorem freeData_full {bs : Nat} {l : List Slot} (h : ∀ b ∈ l, b.data.length = bs) : (freeData bs l).length = bs := by
  unfold freeData
  cases hf : l.find? (fun b => b.index.isNone) with
  | none => simp
  | some b => exact h b (List.mem_of_find?_eq_some hf)

theorem MultiRel.next {σ ι} {S : Source σ ι} {file : Bytes} {bs : Nat} {At : Nat → σ → Prop} {Ok : σ → ι → Prop} (hD : Delivers S file bs At Ok) (hbs : 0 < bs)
    {k : Nat} {g : MultiG σ} {s : MultiR} (h : MultiRel file bs At k g s) (retry : Bool) (i : ι) (hok : Ok g.src i) (cap : Nat) (hcap : bs ≤ cap) :
    (g.next S retry i cap).2 = (s.next retry (S.fails g.src bs i) cap).2 ∧
    ∃ k', MultiRel file bs At k' (g.next S retry i cap).1 (s.next retry (S.fails g.src bs i) cap).1 := by
  obtain ⟨e1, e2, e3, e4, e5, e6, e7, e8, e9, e10⟩ := h
  obtain ⟨gs, gm, gr, gb', gl, gu, gf⟩ := g
  obtain ⟨sr, sm, sb, gb, sl, su, sf⟩ := s
  simp only at e1 e2 e3 e4 e5 e6 e7 e8 e9 e10
  obtain ⟨rfl, rfl⟩ := e3
  obtain ⟨rfl, e6⟩ := e6
  subst e1 e2 e4 e5 e9
  unfold MultiG.next MultiR.next MultiG.isFinished MultiR.isFinished MultiG.live MultiR.live
  simp only
  have base : ∀ {r : Nat}, MultiRel file gb At k ⟨gs, gm, r, gb, gl, gu, gf⟩ ⟨⟨file, bytesIn file gb k⟩, gm, r, gb, gl, gu, gf⟩ :=
    ⟨rfl, rfl, ⟨rfl, rfl⟩, rfl, rfl, ⟨rfl, e6⟩, e7, e8, rfl, e10⟩
  split
  · exact ⟨rfl, k, base⟩
  · cases (if retry = true then minSlot (gl.filter fun b => b.index.isSome) else none) with
    | some b =>
      simp only
      split
      · exact ⟨rfl, k, base⟩
      · exact ⟨rfl, k, base⟩
    | none =>
      simp only
      cases gl.find? (fun b => b.index == some (gr + 1)) with
      | some b =>
        simp only
        split
        · exact ⟨rfl, k, base⟩
        · exact ⟨rfl, k, base⟩
      | none =>
        simp only
        split
        · exact ⟨rfl, k, base⟩
        · rename_i hfin
          have hff : gf = false := by cases gf <;> simp at hfin ⊢
          subst hff
          have hk : k < nblocks file gb := by
            have : ¬ k = nblocks file gb := fun h => by simpa using e6.mpr h
            omega
          have hfull := e7 rfl
          rw [freeData_full hfull]
          rcases hD.step e8 hk i hok with ⟨h1, h2⟩ | ⟨h1, h2⟩
          · have hfl : S.fails gs gb i = true := by simp [Source.fails, h1]
            rw [hfl]
            generalize S.read gs gb i = x at h1 h2
            obtain ⟨x1, x2⟩ := x
            simp only at h1 h2
            subst h1
            simp only [FileR.read, if_true]
            refine ⟨by trivial, k, rfl, rfl, ⟨rfl, rfl⟩, rfl, rfl, ⟨rfl, e6⟩, fun _ b hb => ?_, h2, rfl, e10⟩
            rcases mem_putSlot hb with hb | hb
            · rw [hb]; exact freeData_full hfull
            · exact hfull b hb
          · have hfl : S.fails gs gb i = false := by simp [Source.fails, h1]
            rw [hfl, file_block hbs hk]
            generalize S.read gs gb i = x at h1 h2
            obtain ⟨x1, x2⟩ := x
            simp only at h1 h2
            subst h1
            have hle := block_length_le file gb (k + 1)
            have hb2 := block_last hbs hk
            have hfit : (block file gb (k + 1)).length ≤ cap := Nat.le_trans hle hcap
            simp only [if_pos hfit]
            refine ⟨trivial, k + 1, rfl, rfl, ⟨rfl, rfl⟩, rfl, rfl, ⟨rfl, ?_⟩, fun h b hb => ?_, h2, rfl, hk⟩
            · simp only [Bool.false_or, decide_eq_true_eq]
              exact hb2.1
            · simp only [Bool.false_or, decide_eq_false_iff_not] at h
              rcases mem_putSlot hb with hb | hb
              · rw [hb]; simp only; omega
              · exact hfull b hb

theorem MultiRel.free {σ} {file : Bytes} {bs : Nat} {At : Nat → σ → Prop} {k : Nat} {g : MultiG σ} {s : MultiR} (h : MultiRel file bs At k g s) (blk : Nat) :
    (g.free blk).2 = (s.free blk).2 ∧ MultiRel file bs At k (g.free blk).1 (s.free blk).1 := by
  obtain ⟨e1, e2, e3, e4, e5, e6, e7, e8, e9, e10⟩ := h
  have hfull : s.finished = false → ∀ b ∈ s.slots.map (fun b => if freed (s.mapper.index blk).2 b = true then { b with index := none } else b),
      b.data.length = s.bs := by
    intro h b hb
    obtain ⟨c, hc, rfl⟩ := List.mem_map.mp hb
    rw [e3.2]
    split
    · exact e7 h c hc
    · exact e7 h c hc
  unfold MultiG.free MultiR.free
  simp only [e1, e4]
  rw [e3.2] at hfull
  cases (s.slots.filter (freed (s.mapper.index blk).2)).foldl (fun (l : Option Nat) b => Max.max l b.index) none with
  | some i => exact ⟨rfl, rfl, rfl, e3, rfl, e5, e6, hfull, e8, e9, e10⟩
  | none => exact ⟨rfl, rfl, e2, e3, rfl, e5, e6, hfull, e8, e9, e10⟩

/-- The same for the seeking reader over a source which cannot seek. -/
structure SeekRel {σ} (file : Bytes) (bs : Nat) (At : Nat → σ → Prop) (g : SeekG σ) (s : SeekR) : Prop where
  mapper : g.mapper = s.mapper
  blockRead : g.blockRead = s.blockRead
  confirmed : g.confirmed = s.confirmed
  current : g.current = s.current
  bs_eq : g.bs = bs ∧ s.bs = bs
  offset : g.lastOffset = s.lastOffset ∧ s.lastOffset = bytesIn file bs s.blockRead
  max : g.max = s.max
  fin : g.finishedSize = s.finishedSize ∧ (s.finishedSize.isSome ↔ s.blockRead = nblocks file bs)
  src : At s.blockRead g.src
  file_eq : s.reader.file = file
  le : s.blockRead ≤ nblocks file bs
  cur : s.current ≤ s.blockRead

/-- Would the next call of `next` read a block again? (src/readers/multiple_block_seek_reader.rs:53, 83) -/
def SeekG.again? {σ} (s : SeekG σ) (retry : Bool) : Bool :=
  !s.isFinished && (retry && decide (s.blockRead > s.confirmed) || decide (s.blockRead ≥ s.current + 1))

theorem SeekRel.next {σ ι} {S : Source σ ι} {file : Bytes} {bs : Nat} {At : Nat → σ → Prop} {Ok : σ → ι → Prop} (hD : Delivers S file bs At Ok) (hN : NoSeek S)
    (hbs : 0 < bs) {g : SeekG σ} {s : SeekR} (h : SeekRel file bs At g s) (retry : Bool) (i : ι) (hok : Ok g.src i) (cap : Nat) (hcap : bs ≤ cap) :
    (g.next S retry i cap).2 = (s.next retry (S.fails g.src bs i || g.again? retry) cap).2 ∧
    SeekRel file bs At (g.next S retry i cap).1 (s.next retry (S.fails g.src bs i || g.again? retry) cap).1 ∧
    (g.again? retry = true → (g.next S retry i cap).2 = .ioErr) := by
  obtain ⟨e1, e2, e3, e4, e5, e6, e7, e8, e9, e10, e11, e12⟩ := h
  obtain ⟨gs, gm, gr, gc, gu, gb', gl, gx, gf⟩ := g
  obtain ⟨⟨f, p⟩, sm, sr, sc, su, gb, sl, sx, sf⟩ := s
  simp only at e1 e2 e3 e4 e5 e6 e7 e8 e9 e10 e11 e12
  obtain ⟨rfl, rfl⟩ := e5
  obtain ⟨rfl, e6⟩ := e6
  obtain ⟨rfl, e8⟩ := e8
  subst e1 e2 e3 e4 e7 e10
  have base : ∀ {q : Nat}, SeekRel f gb At ⟨gs, gm, gr, gc, gu, gb, gl, gx, gf⟩ ⟨⟨f, q⟩, gm, gr, gc, gu, gb, gl, gx, gf⟩ :=
    ⟨rfl, rfl, rfl, rfl, ⟨rfl, rfl⟩, ⟨rfl, e6⟩, rfl, ⟨rfl, e8⟩, e9, rfl, e11, e12⟩
  unfold SeekG.next SeekR.next SeekG.again? SeekG.isFinished SeekR.isFinished
  simp only
  by_cases hfin : (gr == gc && gf.isSome) = true
  · rw [if_pos hfin, if_pos hfin]
    exact ⟨rfl, base, fun h => by simp [hfin] at h⟩
  · rw [if_neg hfin, if_neg hfin]
    rw [Bool.not_eq_true] at hfin
    by_cases hr : (retry && decide (gr > gc)) = true
    · simp only [hfin, hr, Bool.not_false, Bool.true_or, Bool.and_true, Bool.or_true, if_true, SeekG.again, hN.seek, if_pos hcap, FileR.seek, FileR.read]
      exact ⟨trivial, base, fun _ => trivial⟩
    · rw [if_neg hr, if_neg hr]
      rw [Bool.not_eq_true] at hr
      by_cases hc : gr ≥ gu + 1
      · simp only [hfin, hr, hc, decide_true, Bool.not_false, Bool.or_true, Bool.and_true, if_true, SeekG.again, hN.seek, if_pos hcap, FileR.seek, FileR.read]
        exact ⟨trivial, base, fun _ => trivial⟩
      · rw [if_neg hc, if_neg hc]
        have ha : (!(gr == gc && gf.isSome) && (retry && decide (gr > gc) || decide (gr ≥ gu + 1))) = false := by
          rw [hr, decide_eq_false hc]; simp
        rw [ha, Bool.or_false]
        by_cases hw : (gf.isSome || decide (gr - gc ≥ gx)) = true
        · rw [if_pos hw, if_pos hw]
          exact ⟨rfl, base, fun h => by cases h⟩
        · rw [if_neg hw, if_neg hw]
          have hgf : gf = none := by
            cases gf with
            | none => rfl
            | some x => simp at hw
          subst hgf
          have hk : gr < nblocks f gb := by
            have : ¬ gr = nblocks f gb := fun h => by simpa using e8.mpr h
            omega
          have hpos : (if p ≠ gl then (⟨FileR.seek ⟨f, p⟩ gl, gm, gr, gc, gu, gb, gl, gx, none⟩ : SeekR)
              else ⟨⟨f, p⟩, gm, gr, gc, gu, gb, gl, gx, none⟩) = ⟨⟨f, bytesIn f gb gr⟩, gm, gr, gc, gu, gb, gl, gx, none⟩ := by
            rw [← e6]
            split
            · rfl
            · next hp => simp at hp; simp [hp]
          rw [hpos]
          simp only [SeekG.toEnd, hN.tell, if_pos hcap]
          rcases hD.step e9 hk i hok with ⟨h1, h2⟩ | ⟨h1, h2⟩
          · have hfl : S.fails gs gb i = true := by simp [Source.fails, h1]
            rw [hfl]
            generalize S.read gs gb i = x at h1 h2
            obtain ⟨x1, x2⟩ := x
            simp only at h1 h2
            subst h1
            simp only [FileR.read, if_true]
            exact ⟨trivial, ⟨rfl, rfl, rfl, rfl, ⟨rfl, rfl⟩, ⟨rfl, e6⟩, rfl, ⟨rfl, e8⟩, h2, rfl, e11, e12⟩, fun h => by cases h⟩
          · have hfl : S.fails gs gb i = false := by simp [Source.fails, h1]
            rw [hfl, file_block hbs hk]
            generalize S.read gs gb i = x at h1 h2
            obtain ⟨x1, x2⟩ := x
            simp only at h1 h2
            subst h1
            have hb2 := block_last hbs hk
            have hl := block_length f gb (gr + 1) (by omega)
            have hm := bytesIn_mono f gb (Nat.le_add_right gr 1)
            simp only
            have hgu : gu = gr := by omega
            subst hgu
            refine ⟨trivial, ⟨rfl, rfl, rfl, rfl, ⟨rfl, rfl⟩, ⟨rfl, ?_⟩, rfl, ⟨rfl, ?_⟩, h2, rfl, hk, Nat.le_refl _⟩, fun h => by cases h⟩
            · simp only [hl, e6, Nat.add_sub_cancel]; omega
            · simp only
              by_cases hs : (block f gb (gu + 1)).length < gb
              · rw [if_pos hs]; exact iff_of_true rfl (hb2.1.mp hs)
              · rw [if_neg hs]; exact iff_of_false (by simp) (fun h => hs (hb2.1.mpr h))

theorem SeekRel.free {σ} {file : Bytes} {bs : Nat} {At : Nat → σ → Prop} {g : SeekG σ} {s : SeekR} (h : SeekRel file bs At g s) (blk : Nat) :
    (g.free blk).2 = (s.free blk).2 ∧ SeekRel file bs At (g.free blk).1 (s.free blk).1 := by
  obtain ⟨e1, e2, e3, e4, e5, e6, e7, e8, e9, e10, e11, e12⟩ := h
  unfold SeekG.free SeekR.free
  simp only [e1, e2, e3, e5.1, e5.2, e8.1]
  by_cases hi : (s.mapper.index blk).2 > s.confirmed
  · simp only [if_pos hi]
    refine ⟨rfl, rfl, rfl, rfl, rfl, ⟨rfl, rfl⟩, e6, e7, ⟨rfl, e8.2⟩, e9, e10, e11, ?_⟩
    simp only
    split <;> omega
  · simp only [if_neg hi]
    exact ⟨trivial, rfl, rfl, rfl, e4, ⟨rfl, rfl⟩, e6, e7, ⟨rfl, e8.2⟩, e9, e10, e11, e12⟩

end Tftp

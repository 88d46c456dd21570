import Verif.ReaderProps
/-
The windowed reader of builds without allocator (src/readers/multiple_block_reader.rs:106-113, 170-173): its buffers are a
`heapless::Vec` of `MAX_BLOCKS_FOR_MULTI_READER` = 16 slots (src/config.rs:46). `push` into a full vector gives the value back, the
code ignores that and goes on with `last_mut`. C87.
-/
namespace Tftp

open Spec

/-- src/readers/multiple_block_reader.rs:106-113: the buffer which is going to be filled when there are `K` slots: a free one, a new one
while there is room, or else the last one, although it holds a block which is not acknowledged (with `K = 0` the code would panic; `K`
is 16). The fresh buffer is `new_data_block` (src/buffer.rs:117-125; without allocator its bytes are arbitrary, they are overwritten
or cut off by the read). -/
def slotIn (K bs : Nat) (l : List Slot) : Slot :=
  match l.find? (fun b => b.index.isNone) with
  | some b => b
  | none => if l.length < K then ⟨List.replicate bs 0, none⟩ else (l.getLast?).getD ⟨[], none⟩

/-- The same slot after it was changed to `new`. -/
def putIn (K : Nat) (new : Slot) (l : List Slot) : List Slot :=
  if l.any (fun b => b.index.isNone) || l.length < K then putSlot new l else l.dropLast ++ [new]

/-- src/readers/multiple_block_reader.rs:48-133 `next` of a build without allocator, with `K` slots. A failed read or a too small
output buffer leaves the index of the slot as it was. -/
def MultiR.nextIn (K : Nat) (s : MultiR) (retry fail : Bool) (cap : Nat) : MultiR × NextOut :=
  if s.isFinished then (s, .none)
  else
    match (if retry then minSlot s.live else none) with
    | some b =>
      let s := { s with blockRead := b.index.getD 0 }
      if b.data.length ≤ cap then
        (s, .block ⟨blockOf s.blockRead, s.blockRead, b.data, true⟩)
      else (s, .badBuffer)
    | none =>
      let index := s.blockRead + 1
      match s.slots.find? (fun b => b.index == some index) with
      | some b =>
        if b.data.length ≤ cap then
          ({ s with blockRead := index }, .block ⟨blockOf index, index, b.data, true⟩)
        else (s, .badBuffer)
      | none =>
        if s.finished || s.live.length ≥ s.max then (s, .none)
        else
          let t := slotIn K s.bs s.slots
          match s.reader.read t.data.length fail with
          | none => ({ s with slots := putIn K t s.slots }, .ioErr)
          | some (d, r) =>
            if d.length ≤ cap then
              ({ s with
                  reader := r
                  slots := putIn K ⟨d, some index⟩ s.slots
                  blockRead := index
                  finished := s.finished || decide (d.length < s.bs) },
                .block ⟨blockOf index, index, d, false⟩)
            else ({ s with reader := r, slots := putIn K ⟨d, t.index⟩ s.slots }, .badBuffer)

/-- The answers of the reader with `K` slots to raw operations; `free_block` is the same in both builds. -/
def MultiR.answersIn (K cap : Nat) : MultiR → List Op → List (Obs × Bool)
  | _, [] => []
  | s, .next retry fail :: cs =>
    let r := s.nextIn K retry fail cap
    (.out r.2, r.1.isFinished) :: MultiR.answersIn K cap r.1 cs
  | s, .ack b :: cs =>
    let r := s.free b
    (.freed (some r.2), r.1.isFinished) :: MultiR.answersIn K cap r.1 cs

/-- The answers of the reader with a growing vector of slots (`alloc`) to raw operations. -/
def MultiR.answersAll (cap : Nat) : MultiR → List Op → List (Obs × Bool)
  | _, [] => []
  | s, .next retry fail :: cs =>
    let r := s.next retry fail cap
    (.out r.2, r.1.isFinished) :: MultiR.answersAll cap r.1 cs
  | s, .ack b :: cs =>
    let r := s.free b
    (.freed (some r.2), r.1.isFinished) :: MultiR.answersAll cap r.1 cs

/-- With no free slot all slots are live. -/
theorem full_live {l : List Slot} (h : l.any (fun b => b.index.isNone) = false) : l.filter (fun b => b.index.isSome) = l := by
  rw [List.filter_eq_self]
  intro b hb
  rw [List.any_eq_false] at h
  have := h b hb
  cases hi : b.index with
  | none => simp [hi] at this
  | some i => rfl

/-- As long as the window is at most the number of slots, a slot is never taken from a block in flight: the two builds do the same. -/
theorem nextIn_eq (K : Nat) (s : MultiR) (h : s.max ≤ K) (retry fail : Bool) (cap : Nat) :
    s.nextIn K retry fail cap = s.next retry fail cap := by
  unfold MultiR.nextIn MultiR.next
  by_cases hf : s.isFinished = true
  · simp only [hf, ↓reduceIte]
  · simp only [hf, ↓reduceIte, Bool.false_eq_true]
    cases (if retry = true then minSlot s.live else none) with
    | some b => rfl
    | none =>
      cases s.slots.find? (fun b => b.index == some (s.blockRead + 1)) with
      | some b => rfl
      | none =>
        by_cases hw : (s.finished || decide (s.live.length ≥ s.max)) = true
        · simp only [hw, ↓reduceIte]
        · have hroom : s.slots.any (fun b => b.index.isNone) || decide (s.slots.length < K) := by
            cases ha : s.slots.any (fun b => b.index.isNone) with
            | true => rfl
            | false =>
              have hl := full_live ha
              simp only [Bool.or_eq_true, decide_eq_true_eq, not_or, Nat.not_le] at hw
              have := hw.2
              unfold MultiR.live at this
              rw [hl] at this
              simp only [Bool.false_or, decide_eq_true_eq]
              omega
          have hput : ∀ t, putIn K t s.slots = putSlot t s.slots := fun t => by
            unfold putIn; simp only [hroom, ↓reduceIte]
          have hidx : (slotIn K s.bs s.slots).index = none ∧ (slotIn K s.bs s.slots).data = freeData s.bs s.slots := by
            unfold slotIn freeData
            cases hg : s.slots.find? (fun b => b.index.isNone) with
            | some b =>
              have := List.find?_some hg
              exact ⟨by simpa using this, rfl⟩
            | none =>
              have : s.slots.any (fun b => b.index.isNone) = false := by
                rw [List.find?_eq_none] at hg
                rw [List.any_eq_false]
                exact hg
              rw [this, Bool.false_or, decide_eq_true_eq] at hroom
              simp only [hroom, ↓reduceIte, and_self]
          have hslot : slotIn K s.bs s.slots = ⟨freeData s.bs s.slots, none⟩ := by
            cases hs : slotIn K s.bs s.slots with
            | mk d i => rw [hs] at hidx; simp only at hidx; rw [hidx.1, hidx.2]
          simp only [hw, ↓reduceIte, Bool.false_eq_true, hslot, hput]
          cases s.reader.read (freeData s.bs s.slots).length fail with
          | none => rfl
          | some x => rfl

theorem next_max (s : MultiR) (retry fail : Bool) (cap : Nat) : (s.next retry fail cap).1.max = s.max := by
  unfold MultiR.next
  split
  · rfl
  · split
    · simp only; split <;> rfl
    · simp only
      split
      · split <;> rfl
      · split
        · rfl
        · split
          · rfl
          · split <;> rfl

theorem free_max (s : MultiR) (b : Nat) : (s.free b).1.max = s.max := by
  unfold MultiR.free
  simp only
  split <;> rfl

/-- **C87**: with a window of at most as many blocks as there are slots, the windowed reader of a build without allocator answers every
history of calls (any acknowledgement numbers, retries, read failures, output buffers) like the one which allocates its buffers. -/
theorem c87_same_answers (K W : Nat) (hW : W ≤ K) (file : Bytes) (bs cap : Nat) (ops : List Op) :
    MultiR.answersIn K cap (MultiR.new file bs W) ops = MultiR.answersAll cap (MultiR.new file bs W) ops := by
  have key : ∀ (ops : List Op) (s : MultiR), s.max ≤ K → MultiR.answersIn K cap s ops = MultiR.answersAll cap s ops := by
    intro ops
    induction ops with
    | nil => intros; rfl
    | cons c cs ih =>
      intro s hs
      cases c with
      | next retry fail =>
        simp only [MultiR.answersIn, MultiR.answersAll, nextIn_eq K s hs]
        rw [ih _ (by rw [next_max]; exact hs)]
      | ack b =>
        simp only [MultiR.answersIn, MultiR.answersAll]
        rw [ih _ (by rw [free_max]; exact hs)]
  exact key ops _ hW

/-- The blocks among the answers are the ones of `Reader.blocks`. -/
theorem answersAll_blocks (cap : Nat) (b : Block) : ∀ (ops : List Op) (s : MultiR) (f : Bool),
    (Obs.out (.block b), f) ∈ MultiR.answersAll cap s ops → NextOut.block b ∈ Reader.blocks cap (.multi s) ops := by
  intro ops
  induction ops with
  | nil => intro s f h; cases h
  | cons c cs ih =>
    intro s f h
    cases c with
    | next retry fail =>
      simp only [MultiR.answersAll, List.mem_cons, Prod.mk.injEq, Obs.out.injEq] at h
      simp only [Reader.blocks, Reader.next, List.mem_cons]
      rcases h with h | h
      · exact .inl h.1
      · exact .inr (ih _ _ h)
    | ack t =>
      simp only [MultiR.answersAll, List.mem_cons, Prod.mk.injEq, reduceCtorEq, false_and, false_or] at h
      simp only [Reader.blocks, Reader.free]
      exact ih _ _ h

/-- **C87**: so every block it hands out is the right piece of the file, whatever the peer acknowledges. -/
theorem c87_blocks_exact (K W : Nat) (hW : W ≤ K) (file : Bytes) (bs cap : Nat) (hbs : 0 < bs) (hcap : bs ≤ cap) (ops : List Op)
    (b : Block) (f : Bool) (h : (Obs.out (.block b), f) ∈ MultiR.answersIn K cap (MultiR.new file bs W) ops) :
    1 ≤ b.index ∧ b.index ≤ file.length / bs + 1 ∧ b.block = b.index % 65536 ∧
    b.data = slice file ((b.index - 1) * bs) (b.index * bs) := by
  rw [c87_same_answers K W hW] at h
  exact c07_blocks_exact_any_acks .multi file bs W cap hbs hcap (fun h => by cases h) ops b (answersAll_blocks cap b ops _ f h)

/-! ### A window above the number of slots -/

/-- The slot of block `i`. -/
def held (file : Bytes) (bs i : Nat) : Slot := ⟨block file bs i, some i⟩

/-- The reader after `n` blocks were handed out and none acknowledged, if the window is above the number of slots. -/
def overrun (file : Bytes) (bs W K n : Nat) : MultiR :=
  ⟨⟨file, n * bs⟩, Mapper.new, n, bs,
    (List.range' 1 (min n (K - 1))).map (held file bs) ++ (if K ≤ n then [held file bs n] else []), W, false⟩

theorem block_whole {file : Bytes} {bs i : Nat} (h : i * bs ≤ file.length) (hi : 1 ≤ i) : (block file bs i).length = bs := by
  unfold block
  rw [List.length_take, List.length_drop]
  have : (i - 1) * bs + bs = i * bs := by
    rw [← Nat.succ_mul]; congr 1; omega
  omega

theorem overrun_live {file : Bytes} {bs W K n : Nat} : ∀ b ∈ (overrun file bs W K n).slots, ∃ i, b = held file bs i ∧ 1 ≤ i ∧ i ≤ n ∨
    b = held file bs n := by
  intro b hb
  simp only [overrun, List.mem_append, List.mem_map, List.mem_range'_1] at hb
  rcases hb with ⟨i, hi, rfl⟩ | hb
  · exact ⟨i, .inl ⟨rfl, hi.1, by omega⟩⟩
  · split at hb
    · simp only [List.mem_singleton] at hb
      exact ⟨0, .inr hb⟩
    · cases hb

theorem overrun_find_free {file : Bytes} {bs W K n : Nat} : (overrun file bs W K n).slots.find? (fun b => b.index.isNone) = none := by
  rw [List.find?_eq_none]
  intro b hb
  obtain ⟨i, ⟨rfl, -⟩ | rfl⟩ := overrun_live b hb <;> simp [held]

theorem overrun_any {file : Bytes} {bs W K n : Nat} : (overrun file bs W K n).slots.any (fun b => b.index.isNone) = false := by
  rw [List.any_eq_false]
  intro b hb
  obtain ⟨i, ⟨rfl, -⟩ | rfl⟩ := overrun_live b hb <;> simp [held]

theorem overrun_length {file : Bytes} {bs W K n : Nat} (hK : 1 ≤ K) : (overrun file bs W K n).slots.length = min n K := by
  simp only [overrun, List.length_append, List.length_map, List.length_range']
  split
  · simp only [List.length_singleton]; omega
  · simp only [List.length_nil]; omega

theorem putSlot_end {l : List Slot} (h : l.any (fun b => b.index.isNone) = false) (t : Slot) : putSlot t l = l ++ [t] := by
  induction l with
  | nil => rfl
  | cons a l ih =>
    rw [List.any_cons, Bool.or_eq_false_iff] at h
    simp only [putSlot, h.1, Bool.false_eq_true, ↓reduceIte, List.cons_append, ih h.2]

theorem overrun_put {file : Bytes} {bs W K n : Nat} (hK : 1 ≤ K) :
    putIn K (held file bs (n + 1)) (overrun file bs W K n).slots = (overrun file bs W K (n + 1)).slots := by
  unfold putIn
  rw [overrun_any, overrun_length hK, Bool.false_or]
  by_cases hn : n < K
  · have h1 : min n K < K := by omega
    simp only [h1, decide_true, ↓reduceIte]
    rw [putSlot_end overrun_any]
    simp only [overrun]
    have h2 : ¬ K ≤ n := by omega
    simp only [h2, ↓reduceIte, List.append_nil]
    by_cases hk : K ≤ n + 1
    · simp only [hk, ↓reduceIte]
      have h3 : min n (K - 1) = min (n + 1) (K - 1) := by omega
      rw [h3]
    · simp only [hk, ↓reduceIte, List.append_nil]
      have h3 : min n (K - 1) = n := by omega
      have h4 : min (n + 1) (K - 1) = n + 1 := by omega
      rw [h3, h4, List.range'_concat, List.map_append]
      simp [Nat.add_comm]
  · have h1 : ¬ min n K < K := by omega
    simp only [h1, decide_false, Bool.false_eq_true, ↓reduceIte, overrun]
    have h2 : K ≤ n := by omega
    have h3 : K ≤ n + 1 := by omega
    have h4 : min n (K - 1) = min (n + 1) (K - 1) := by omega
    simp only [h2, h3, ↓reduceIte, List.dropLast_concat, h4]

theorem overrun_slot {file : Bytes} {bs W K n : Nat} (hK : 1 ≤ K) (hn : n * bs ≤ file.length) :
    (slotIn K bs (overrun file bs W K n).slots).data.length = bs := by
  unfold slotIn
  rw [overrun_find_free]
  simp only
  split
  · simp
  · rename_i h
    rw [overrun_length hK] at h
    have h2 : K ≤ n := by omega
    simp only [overrun, h2, ↓reduceIte, List.getLast?_append, List.getLast?_singleton, Option.getD_some, held, Option.some_or]
    exact block_whole hn (by omega)

/-- One more block, although none was acknowledged. -/
theorem overrun_next {file : Bytes} {bs W K n cap : Nat} (hK : 1 ≤ K) (hW : K < W) (hbs : 0 < bs) (hcap : bs ≤ cap)
    (hn : (n + 1) * bs ≤ file.length) :
    (overrun file bs W K n).nextIn K false false cap =
      (overrun file bs W K (n + 1), .block ⟨blockOf (n + 1), n + 1, block file bs (n + 1), false⟩) := by
  have hn' : n * bs ≤ file.length := by rw [Nat.succ_mul] at hn; omega
  have hfind : (overrun file bs W K n).slots.find? (fun b => b.index == some (n + 1)) = none := by
    rw [List.find?_eq_none]
    intro b hb
    obtain ⟨i, ⟨rfl, -, hi⟩ | rfl⟩ := overrun_live b hb
    · simp only [held, beq_iff_eq, Option.some.injEq]; omega
    · simp [held]
  have hlive : (overrun file bs W K n).live.length < W := by
    unfold MultiR.live
    rw [full_live overrun_any, overrun_length hK]
    omega
  have hread : (⟨file, n * bs⟩ : FileR).read bs false = some (block file bs (n + 1), ⟨file, (n + 1) * bs⟩) := by
    have hl := block_whole hn (by omega)
    unfold FileR.read
    have : List.take bs (List.drop (n * bs) file) = block file bs (n + 1) := by
      unfold block; rw [Nat.add_sub_cancel]
    simp only [Bool.false_eq_true, ↓reduceIte, this, hl, ← Nat.succ_mul]
  have hl := block_whole hn (by omega)
  have hs := overrun_slot (file := file) (W := W) hK hn'
  have hp := overrun_put (file := file) (bs := bs) (W := W) (n := n) hK
  unfold MultiR.nextIn MultiR.isFinished
  have e1 : (overrun file bs W K n).finished = false := rfl
  have e2 : (overrun file bs W K n).blockRead = n := rfl
  have e3 : (overrun file bs W K n).max = W := rfl
  have e4 : (overrun file bs W K n).bs = bs := rfl
  have e5 : (overrun file bs W K n).reader = ⟨file, n * bs⟩ := rfl
  have hge : ¬ (overrun file bs W K n).live.length ≥ W := by omega
  simp only [e1, e2, e3, e4, e5, Bool.and_false, Bool.false_eq_true, ↓reduceIte, hfind, hge, decide_false, Bool.or_self, hs, hread,
    hl, hcap]
  rw [show (⟨block file bs (n + 1), some (n + 1)⟩ : Slot) = held file bs (n + 1) from rfl, hp]
  simp only [Nat.lt_irrefl, decide_false]
  rfl

/-- What the reader with `K` slots answers; only the blocks. -/
def MultiR.outsIn (K cap : Nat) (s : MultiR) (ops : List Op) : List Obs := (MultiR.answersIn K cap s ops).map (·.1)

/-- The state after operations. -/
def MultiR.afterIn (K cap : Nat) : MultiR → List Op → MultiR
  | s, [] => s
  | s, .next retry fail :: cs => MultiR.afterIn K cap (s.nextIn K retry fail cap).1 cs
  | s, .ack b :: cs => MultiR.afterIn K cap (s.free b).1 cs

theorem outsIn_append (K cap : Nat) (ops ops' : List Op) (s : MultiR) :
    s.outsIn K cap (ops ++ ops') = s.outsIn K cap ops ++ (s.afterIn K cap ops).outsIn K cap ops' := by
  induction ops generalizing s with
  | nil => rfl
  | cons c cs ih =>
    have := fun s => ih s
    simp only [MultiR.outsIn] at this ⊢
    cases c with
    | next r f => simp only [List.cons_append, MultiR.answersIn, MultiR.afterIn, List.map_cons, this]
    | ack b => simp only [List.cons_append, MultiR.answersIn, MultiR.afterIn, List.map_cons, this]

theorem afterIn_append (K cap : Nat) (ops ops' : List Op) (s : MultiR) :
    s.afterIn K cap (ops ++ ops') = (s.afterIn K cap ops).afterIn K cap ops' := by
  induction ops generalizing s with
  | nil => rfl
  | cons c cs ih => cases c with
    | next r f => exact ih _
    | ack b => exact ih _

theorem overrun_init (file : Bytes) (bs W K : Nat) (hK : 1 ≤ K) : MultiR.new file bs W = overrun file bs W K 0 := by
  unfold MultiR.new overrun
  have : ¬ K ≤ 0 := by omega
  simp [this]

theorem overrun_all {file : Bytes} {bs W K cap : Nat} (hK : 1 ≤ K) (hW : K < W) (hbs : 0 < bs) (hcap : bs ≤ cap) (n : Nat)
    (hn : n * bs ≤ file.length) :
    (MultiR.new file bs W).afterIn K cap (List.replicate n (.next false false)) = overrun file bs W K n ∧
    (MultiR.new file bs W).outsIn K cap (List.replicate n (.next false false)) =
      (List.range' 1 n).map fun i => .out (.block ⟨blockOf i, i, block file bs i, false⟩) := by
  induction n with
  | zero => exact ⟨overrun_init file bs W K hK, rfl⟩
  | succ n ih =>
    have hn' : n * bs ≤ file.length := by rw [Nat.succ_mul] at hn; omega
    obtain ⟨ih1, ih2⟩ := ih hn'
    rw [List.replicate_succ', afterIn_append, outsIn_append, ih1, ih2]
    refine ⟨?_, ?_⟩
    · simp only [MultiR.afterIn, overrun_next hK hW hbs hcap hn]
    · simp only [MultiR.outsIn, MultiR.answersIn, overrun_next hK hW hbs hcap hn, List.map_cons, List.map_nil]
      rw [List.range'_concat, List.map_append]
      simp [Nat.add_comm]

/-- **C87** (witness that the window is not respected): with a window above the number of slots the reader hands out every whole block of
the file without a single acknowledgement, however small the window is compared with the file. -/
theorem c87_no_window (K W : Nat) (hK : 1 ≤ K) (hW : K < W) (file : Bytes) (bs cap : Nat) (hbs : 0 < bs) (hcap : bs ≤ cap) (n : Nat)
    (hn : n * bs ≤ file.length) :
    (MultiR.new file bs W).outsIn K cap (List.replicate n (.next false false)) =
      (List.range' 1 n).map fun i => .out (.block ⟨blockOf i, i, block file bs i, false⟩) :=
  (overrun_all hK hW hbs hcap n hn).2

/-- The reader while it goes through its slots again, at block `j`. -/
def again (file : Bytes) (bs W K n j : Nat) : MultiR := { overrun file bs W K n with blockRead := j }

theorem again_retry {file : Bytes} {bs W K n cap : Nat} (hK : 2 ≤ K) (hn : K ≤ n) (hcap : bs ≤ cap) :
    ((overrun file bs W K n).nextIn K true false cap).1 = again file bs W K n 1 := by
  obtain ⟨k, rfl⟩ : ∃ k, K = k + 2 := ⟨K - 2, by omega⟩
  have hslots : (overrun file bs W (k + 2) n).live =
      held file bs 1 :: ((List.range' 2 k).map (held file bs) ++ [held file bs n]) := by
    unfold MultiR.live
    rw [full_live overrun_any]
    have h1 : min n (k + 2 - 1) = k + 1 := by omega
    simp only [overrun, h1, hn, ↓reduceIte, List.range'_succ, List.map_cons, List.cons_append]
  have hmin : minSlot (overrun file bs W (k + 2) n).live = some (held file bs 1) := by
    cases hm : minSlot (overrun file bs W (k + 2) n).live with
    | none => rw [minSlot_none, hslots] at hm; cases hm
    | some b =>
      rw [hslots] at hm
      simp only [minSlot, Option.some.injEq] at hm
      rw [← hm]
      have : ∀ (l : List Slot), (∀ b ∈ l, 1 ≤ b.index.getD 0) →
          l.foldl (fun m b => if (b.index.getD 0) < (m.index.getD 0) then b else m) (held file bs 1) = held file bs 1 := by
        intro l
        induction l with
        | nil => intros; rfl
        | cons a l ih =>
          intro hl
          have ha := hl a List.mem_cons_self
          have : ¬ a.index.getD 0 < (held file bs 1).index.getD 0 := by simp only [held, Option.getD_some]; omega
          simp only [List.foldl_cons, this, ↓reduceIte]
          exact ih fun b hb => hl b (List.mem_cons_of_mem _ hb)
      rw [this]
      intro b hb
      simp only [List.mem_append, List.mem_map, List.mem_range'_1, List.mem_singleton] at hb
      rcases hb with ⟨i, hi, rfl⟩ | rfl
      · simp only [held, Option.getD_some]; omega
      · simp only [held, Option.getD_some]; omega
  unfold MultiR.nextIn MultiR.isFinished
  have e1 : (overrun file bs W (k + 2) n).finished = false := rfl
  have h1 : (block file bs 1).length ≤ cap := by
    have := block_length_le file bs (1)
    omega
  simp only [e1, Bool.and_false, Bool.false_eq_true, ↓reduceIte, hmin]
  simp only [held, h1, ↓reduceIte]
  rfl

theorem again_next {file : Bytes} {bs W K n j cap : Nat} (hn : K ≤ n) (hj : j + 1 < K) (hcap : bs ≤ cap) :
    ((again file bs W K n j).nextIn K false false cap).1 = again file bs W K n (j + 1) := by
  have hslots : (again file bs W K n j).slots = (overrun file bs W K n).slots := rfl
  have hfind : ∃ b, (again file bs W K n j).slots.find? (fun b => b.index == some (j + 1)) = some b ∧ b.data = block file bs (j + 1) := by
    cases hf : (again file bs W K n j).slots.find? (fun b => b.index == some (j + 1)) with
    | none =>
      rw [List.find?_eq_none, hslots] at hf
      have := hf (held file bs (j + 1)) (by
        simp only [overrun, List.mem_append, List.mem_map, List.mem_range'_1]
        exact .inl ⟨j + 1, by omega, rfl⟩)
      simp [held] at this
    | some b =>
      have h1 := List.mem_of_find?_eq_some hf
      have h2 := List.find?_some hf
      rw [hslots] at h1
      refine ⟨b, rfl, ?_⟩
      obtain ⟨i, ⟨rfl, -⟩ | rfl⟩ := overrun_live b h1
      · simp only [held, beq_iff_eq, Option.some.injEq] at h2 ⊢; rw [h2]
      · simp only [held, beq_iff_eq, Option.some.injEq] at h2 ⊢; rw [h2]
  obtain ⟨b, hb, hd⟩ := hfind
  have hl : b.data.length ≤ cap := by
    rw [hd]
    have := block_length_le file bs (j + 1)
    omega
  unfold MultiR.nextIn MultiR.isFinished
  have e1 : (again file bs W K n j).finished = false := rfl
  have e2 : (again file bs W K n j).blockRead = j := rfl
  simp only [e1, e2, Bool.and_false, Bool.false_eq_true, ↓reduceIte, hb, hl]
  rfl

theorem again_all {file : Bytes} {bs W K n cap : Nat} (hn : K ≤ n) (hcap : bs ≤ cap) (j : Nat) (hj : j + 1 < K) :
    (again file bs W K n 1).afterIn K cap (List.replicate j (.next false false)) = again file bs W K n (j + 1) := by
  induction j with
  | zero => rfl
  | succ j ih =>
    rw [List.replicate_succ', afterIn_append, ih (by omega)]
    simp only [MultiR.afterIn, again_next hn (show j + 1 + 1 < K from hj) hcap]

/-- **C87** (witness of corruption): with a window above the number of slots, if the reader is asked for `K + 1` blocks, then to repeat
from the first block which is not acknowledged, then for the following ones, block number `K` comes with the bytes of block `K + 2`. -/
theorem c87_corrupt (K W : Nat) (hK : 2 ≤ K) (hW : K < W) (file : Bytes) (bs cap : Nat) (hbs : 0 < bs) (hcap : bs ≤ cap)
    (hlen : (K + 2) * bs ≤ file.length) :
    ((MultiR.new file bs W).outsIn K cap
      (List.replicate (K + 1) (.next false false) ++ .next true false :: List.replicate (K - 1) (.next false false))).getLast? =
      some (.out (.block ⟨blockOf K, K, slice file ((K + 1) * bs) ((K + 2) * bs), false⟩)) := by
  obtain ⟨k, rfl⟩ : ∃ k, K = k + 2 := ⟨K - 2, by omega⟩
  have hlen' : (k + 3) * bs ≤ file.length := by
    rw [show k + 2 + 2 = (k + 3) + 1 from rfl, Nat.succ_mul] at hlen; omega
  have h1 := overrun_all (file := file) (K := k + 2) (W := W) (cap := cap) (by omega) hW hbs hcap (k + 3) hlen'
  have hre := again_retry (file := file) (K := k + 2) (W := W) (n := k + 3) (cap := cap) (by omega) (by omega) hcap
  have hall := again_all (file := file) (bs := bs) (K := k + 2) (W := W) (n := k + 3) (cap := cap) (by omega) hcap k (by omega)
  have hops : (List.replicate (k + 2 + 1) (Op.next false false) ++ .next true false :: List.replicate (k + 2 - 1) (.next false false)) =
      (List.replicate (k + 3) (.next false false) ++ (.next true false :: List.replicate k (.next false false))) ++ [.next false false] := by
    rw [show k + 2 - 1 = k + 1 from rfl, List.replicate_succ' (n := k)]
    simp [List.append_assoc]
  rw [hops, outsIn_append, afterIn_append, h1.1]
  simp only [MultiR.afterIn, hre, hall]
  have hslots : (again file bs W (k + 2) (k + 3) (k + 1)).slots = (overrun file bs W (k + 2) (k + 3)).slots := rfl
  have hlast : ((again file bs W (k + 2) (k + 3) (k + 1)).nextIn (k + 2) false false cap).2 =
      .block ⟨blockOf (k + 2), k + 2, block file bs (k + 4), false⟩ := by
    have hfind : (again file bs W (k + 2) (k + 3) (k + 1)).slots.find? (fun b => b.index == some (k + 1 + 1)) = none := by
      rw [List.find?_eq_none, hslots]
      intro b hb
      simp only [overrun, List.mem_append, List.mem_map, List.mem_range'_1] at hb
      rcases hb with ⟨i, hi, rfl⟩ | hb
      · simp only [held, beq_iff_eq, Option.some.injEq]; omega
      · split at hb
        · simp only [List.mem_singleton] at hb
          subst hb
          simp only [held, beq_iff_eq, Option.some.injEq]; omega
        · cases hb
    have hlive : ¬ (again file bs W (k + 2) (k + 3) (k + 1)).live.length ≥ W := by
      unfold MultiR.live
      rw [hslots, full_live overrun_any, overrun_length (by omega)]
      omega
    have hs := overrun_slot (file := file) (W := W) (K := k + 2) (n := k + 3) (by omega) hlen'
    rw [← hslots] at hs
    have hl : (block file bs (k + 4)).length = bs := block_whole hlen (by omega)
    have hread : (⟨file, (k + 3) * bs⟩ : FileR).read bs false = some (block file bs (k + 4), ⟨file, (k + 4) * bs⟩) := by
      unfold FileR.read
      have : List.take bs (List.drop ((k + 3) * bs) file) = block file bs (k + 4) := rfl
      simp only [Bool.false_eq_true, ↓reduceIte, this, hl, ← Nat.succ_mul]
    unfold MultiR.nextIn MultiR.isFinished
    have e1 : (again file bs W (k + 2) (k + 3) (k + 1)).finished = false := rfl
    have e2 : (again file bs W (k + 2) (k + 3) (k + 1)).blockRead = k + 1 := rfl
    have e3 : (again file bs W (k + 2) (k + 3) (k + 1)).max = W := rfl
    have e4 : (again file bs W (k + 2) (k + 3) (k + 1)).bs = bs := rfl
    have e5 : (again file bs W (k + 2) (k + 3) (k + 1)).reader = ⟨file, (k + 3) * bs⟩ := rfl
    simp only [e1, e2, e3, e4, e5, Bool.and_false, Bool.false_eq_true, ↓reduceIte, hfind, hlive, decide_false, Bool.or_self, hs, hread,
      hl, hcap]
  have hfin : (MultiR.outsIn (k + 2) cap (again file bs W (k + 2) (k + 3) (k + 1)) [.next false false]) =
      [.out (.block ⟨blockOf (k + 2), k + 2, block file bs (k + 4), false⟩)] := by
    simp only [MultiR.outsIn, MultiR.answersIn, hlast, List.map_cons, List.map_nil]
  rw [hfin, List.getLast?_append]
  simp only [List.getLast?_singleton, Option.some_or]
  rw [← slice_block file bs (k + 4) (by omega)]
  rfl

/-- Two slots, a window of three blocks of two bytes: the second block of the repeated window has the bytes of the fourth. -/
example : (MultiR.new [1, 2, 3, 4, 5, 6, 7, 8] 2 3).outsIn 2 2 [.next false false, .next false false, .next false false,
    .next true false, .next false false] =
    [.out (.block ⟨1, 1, [1, 2], false⟩), .out (.block ⟨2, 2, [3, 4], false⟩), .out (.block ⟨3, 3, [5, 6], false⟩),
      .out (.block ⟨1, 1, [1, 2], true⟩), .out (.block ⟨2, 2, [7, 8], false⟩)] := by decide +kernel

/-- With a window of two it waits, and repeats the right bytes. -/
example : (MultiR.new [1, 2, 3, 4, 5, 6, 7, 8] 2 2).outsIn 2 2 [.next false false, .next false false, .next false false,
    .next true false, .next false false] =
    [.out (.block ⟨1, 1, [1, 2], false⟩), .out (.block ⟨2, 2, [3, 4], false⟩), .out .none,
      .out (.block ⟨1, 1, [1, 2], true⟩), .out (.block ⟨2, 2, [3, 4], true⟩)] := by decide +kernel

end Tftp

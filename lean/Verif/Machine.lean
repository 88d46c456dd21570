import Verif.BlockMapper
import Verif.Options
import Verif.SizesCli
import Verif.SourceCli
/-
C90: machine arithmetic. The model computes sizes and block numbers with natural numbers; here the computations are done as in the code, in 16 and 64
bits, with every overflow and failed assertion as `none` (a panic in builds with overflow checks; without the checks the result wraps, `wrapBuffer`).
-/
namespace Tftp
open Spec

/-- Addition of `u16` with overflow check. -/
def addU16 (a b : Nat) : Option Nat := if a + b < 65536 then some (a + b) else none
/-- Subtraction of unsigned numbers with overflow check. -/
def subU (a b : Nat) : Option Nat := if b ≤ a then some (a - b) else none
/-- A result in `u64`, with overflow check. -/
def inU64 (x : Nat) : Option Nat := if x < 2 ^ 64 then some x else none

/-- src/buffer.rs:127-134 `create_max_buffer`: the length of the buffer, `none` if the addition overflows or the assertion fails. -/
def createMaxBuffer (block : Nat) : Option Nat :=
  match addU16 block 4 with
  | none => none
  | some n => if max n 516 ≤ 1429 then some (max n 516) else none

/-- src/buffer.rs:127-134 without overflow checks (release builds). -/
def wrapBuffer (block : Nat) : Option Nat :=
  if max ((block + 4) % 65536) 516 ≤ 1429 then some (max ((block + 4) % 65536) 516) else none

/-- src/config.rs:99-114 `block_size_with_encryption` in `u16`. -/
def Opts.payloadU16 (o : Opts) : Option Nat :=
  match o.level with
  | .data => do subU (← subU o.blockSize 16) 24
  | .full | .protocol => do subU (← subU (← subU o.blockSize 16) 1) 24
  | .optionalData | .optionalProtocol | .none => some o.blockSize

/-- src/server/connection.rs:136, src/client/encryption_socket.rs:102, 115 (after src/client/encryption_socket_builder.rs:84): the size to which
packets are padded. -/
def Opts.paddedU16 (o : Opts) : Option Nat := do addU16 (← o.payloadU16) 4

/-- src/block_mapper.rs:27-32 in `u64`. -/
def Mapper.inCurrentU64 (m : Mapper) (block : Nat) : Option Nat := do
  let c ← subU m.cur 1
  let p ← inU64 (c * 65535)
  let i ← inU64 (p + block)
  if c > 0 then inU64 (i + c) else some i

/-- src/block_mapper.rs:15-33 `index` in `u64`. -/
def Mapper.indexU64 (m : Mapper) (block : Nat) : Option (Mapper × Nat) := do
  let m ← if m.cur = m.next ∧ block > 65535 - 10000 then (inU64 (m.next + 1)).map fun n => { m with next := n } else some m
  if m.cur ≠ m.next then
    if block < 10000 then do
      let nb ← subU m.next 1
      let p ← inU64 (nb * 65535)
      let q ← inU64 (p + block)
      let r ← inU64 (q + nb)
      some (m, r)
    else if 10000 ≤ block ∧ block < 20000 then do
      let c ← inU64 (m.cur + 1)
      let m : Mapper := { m with cur := c }
      let i ← m.inCurrentU64 block
      some (m, i)
    else do
      let i ← m.inCurrentU64 block
      some (m, i)
  else do
    let i ← m.inCurrentU64 block
    some (m, i)

/-- The answers to a sequence of block numbers; `none` if a computation overflows. -/
def Mapper.runU64 (m : Mapper) : List Nat → Option (List Nat)
  | [] => some []
  | b :: r => do
    let (m, i) ← m.indexU64 b
    let is ← m.runU64 r
    some (i :: is)

/-! ### Block numbers -/

theorem inU64_some {x : Nat} (h : x < 2 ^ 64) : inU64 x = some x := by unfold inU64; rw [if_pos h]
theorem subU_some {a b : Nat} (h : b ≤ a) : subU a b = some (a - b) := by unfold subU; rw [if_pos h]

theorem inCurrentU64_eq {m : Mapper} {block n : Nat} (h1 : 1 ≤ m.cur) (h2 : m.cur ≤ n) (hn : n < 2 ^ 47) (hb : block < 65536) :
    m.inCurrentU64 block = some (m.inCurrent block) ∧ m.inCurrent block < 65536 * n := by
  unfold Mapper.inCurrentU64 Mapper.inCurrent
  rw [subU_some h1]
  simp only [Option.bind_eq_bind, Option.bind_some]
  rw [inU64_some (x := (m.cur - 1) * 65535) (by omega)]
  simp only [Option.bind_some]
  rw [inU64_some (x := (m.cur - 1) * 65535 + block) (by omega)]
  simp only [Option.bind_some]
  split
  · rw [inU64_some (by omega)]
    exact ⟨rfl, by omega⟩
  · exact ⟨rfl, by omega⟩

/-- One block number: no overflow, and the set counters grow by at most one. -/
theorem indexU64_eq {m : Mapper} {block n : Nat} (h1 : 1 ≤ m.cur) (h2 : m.cur ≤ m.next) (h3 : m.next ≤ m.cur + 1) (h4 : m.next ≤ n) (hn : n + 1 < 2 ^ 47)
    (hb : block < 65536) :
    m.indexU64 block = some (m.index block) ∧ (m.index block).2 < 65536 * (n + 1) ∧ 1 ≤ (m.index block).1.cur ∧
      (m.index block).1.cur ≤ (m.index block).1.next ∧ (m.index block).1.next ≤ (m.index block).1.cur + 1 ∧ (m.index block).1.next ≤ n + 1 := by
  have key : ∀ m' : Mapper, 1 ≤ m'.cur → m'.cur ≤ m'.next → m'.next ≤ m'.cur + 1 → m'.next ≤ n + 1 →
      (if m'.cur ≠ m'.next then
        if block < 10000 then (do
          let nb ← subU m'.next 1
          let p ← inU64 (nb * 65535)
          let q ← inU64 (p + block)
          let r ← inU64 (q + nb)
          some (m', r))
        else if 10000 ≤ block ∧ block < 20000 then (do
          let c ← inU64 (m'.cur + 1)
          let m : Mapper := { m' with cur := c }
          let i ← m.inCurrentU64 block
          some (m, i))
        else (do
          let i ← m'.inCurrentU64 block
          some (m', i))
      else (do
        let i ← m'.inCurrentU64 block
        some (m', i))) = some (if m'.cur ≠ m'.next then
        if block < 10000 then (m', (m'.next - 1) * 65535 + block + (m'.next - 1))
        else if 10000 ≤ block ∧ block < 20000 then ({ m' with cur := m'.cur + 1 }, ({ m' with cur := m'.cur + 1 } : Mapper).inCurrent block)
        else (m', m'.inCurrent block)
      else (m', m'.inCurrent block)) ∧
      ∀ x, x = (if m'.cur ≠ m'.next then
        if block < 10000 then (m', (m'.next - 1) * 65535 + block + (m'.next - 1))
        else if 10000 ≤ block ∧ block < 20000 then ({ m' with cur := m'.cur + 1 }, ({ m' with cur := m'.cur + 1 } : Mapper).inCurrent block)
        else (m', m'.inCurrent block)
      else (m', m'.inCurrent block)) → x.2 < 65536 * (n + 1) ∧ 1 ≤ x.1.cur ∧ x.1.cur ≤ x.1.next ∧ x.1.next ≤ x.1.cur + 1 ∧ x.1.next ≤ n + 1 := by
    intro m' g1 g2 g3 g4
    by_cases hne : m'.cur ≠ m'.next
    · simp only [if_pos hne]
      by_cases hs : block < 10000
      · simp only [if_pos hs]
        rw [subU_some (by omega)]
        simp only [Option.bind_eq_bind, Option.bind_some]
        rw [inU64_some (x := (m'.next - 1) * 65535) (by omega)]
        simp only [Option.bind_some]
        rw [inU64_some (x := (m'.next - 1) * 65535 + block) (by omega)]
        simp only [Option.bind_some]
        rw [inU64_some (by omega)]
        exact ⟨rfl, fun x hx => by subst hx; exact ⟨by simp only; omega, g1, g2, g3, g4⟩⟩
      · simp only [if_neg hs]
        by_cases hm : 10000 ≤ block ∧ block < 20000
        · simp only [if_pos hm]
          rw [inU64_some (x := m'.cur + 1) (by omega)]
          simp only [Option.bind_eq_bind, Option.bind_some]
          obtain ⟨e1, e2⟩ := inCurrentU64_eq (m := { m' with cur := m'.cur + 1 }) (block := block) (n := n + 1) (by simp only; omega) (by simp only; omega) hn hb
          rw [e1]
          exact ⟨rfl, fun x hx => by subst hx; exact ⟨e2, by simp only; omega, by simp only; omega, by simp only; omega, g4⟩⟩
        · simp only [if_neg hm]
          obtain ⟨e1, e2⟩ := inCurrentU64_eq (m := m') (block := block) (n := n + 1) g1 (by omega) hn hb
          rw [e1]
          exact ⟨rfl, fun x hx => by subst hx; exact ⟨e2, g1, g2, g3, g4⟩⟩
    · simp only [if_neg hne]
      obtain ⟨e1, e2⟩ := inCurrentU64_eq (m := m') (block := block) (n := n + 1) g1 (by omega) hn hb
      rw [e1]
      exact ⟨rfl, fun x hx => by subst hx; exact ⟨e2, g1, g2, g3, g4⟩⟩
  unfold Mapper.indexU64 Mapper.index Mapper.announce
  by_cases ha : m.cur = m.next ∧ block > 65535 - 10000
  · simp only [if_pos ha]
    rw [inU64_some (x := m.next + 1) (by omega)]
    simp only [Option.bind_eq_bind, Option.map_some, Option.bind_some]
    obtain ⟨e1, e2⟩ := key { m with next := m.next + 1 } h1 (by simp only; omega) (by simp only; omega) (by simp only; omega)
    exact ⟨e1, e2 _ rfl⟩
  · simp only [if_neg ha, Option.bind_eq_bind, Option.bind_some]
    obtain ⟨e1, e2⟩ := key m h1 h2 h3 (by omega)
    exact ⟨e1, e2 _ rfl⟩

theorem runU64_eq {m : Mapper} {n : Nat} (bs : List Nat) (h1 : 1 ≤ m.cur) (h2 : m.cur ≤ m.next) (h3 : m.next ≤ m.cur + 1) (h4 : m.next ≤ n)
    (hn : n + bs.length < 2 ^ 47) (hb : ∀ b ∈ bs, b < 65536) :
    m.runU64 bs = some (m.run bs) ∧ ∀ i ∈ m.run bs, i < 65536 * (n + bs.length) := by
  induction bs generalizing m n with
  | nil => exact ⟨rfl, fun i hi => by cases hi⟩
  | cons b r ih =>
    simp only [List.length_cons] at hn
    obtain ⟨e1, e2, e3, e4, e5, e6⟩ := indexU64_eq h1 h2 h3 h4 (by omega) (hb b (List.mem_cons_self ..))
    obtain ⟨f1, f2⟩ := ih (m := (m.index b).1) (n := n + 1) e3 e4 e5 e6 (by omega) fun x hx => hb x (List.mem_cons_of_mem _ hx)
    simp only [Mapper.runU64, Mapper.run, e1, f1, Option.bind_eq_bind, Option.bind_some]
    refine ⟨trivial, fun i hi => ?_⟩
    simp only [List.length_cons]
    rcases List.mem_cons.mp hi with rfl | hi
    · omega
    · have := f2 i hi; omega

/-- **C90**: block numbers. In fewer than 2^46 datagrams, whatever block numbers they carry, no computation of a block index overflows, the indices are
those of the model, and a window can be added to each of them. -/
theorem c90_block_numbers (bs : List Nat) (hb : ∀ b ∈ bs, b < 65536) (hn : bs.length < 2 ^ 46) :
    Mapper.new.runU64 bs = some (Mapper.new.run bs) ∧ ∀ i ∈ Mapper.new.run bs, i + 65535 < 2 ^ 64 := by
  obtain ⟨h1, h2⟩ := runU64_eq (m := Mapper.new) (n := 1) bs (by decide) (by decide) (by decide) (by decide) (by omega) hb
  exact ⟨h1, fun i hi => by have := h2 i hi; omega⟩

example : Mapper.new.runU64 [60000, 5, 15000, 60001] = some [60000, 65541, 80536, 125537] := by decide +kernel

/-! ### Sizes -/

theorem payloadU16_eq (o : Opts) (h : 41 ≤ o.blockSize) (h2 : o.blockSize ≤ 65531) :
    o.payloadU16 = some o.payload ∧ o.paddedU16 = some (o.payload + 4) := by
  have hp : o.payloadU16 = some o.payload ∧ o.payload ≤ 65531 := by
    unfold Opts.payloadU16 Opts.payload
    cases o.level <;> simp only [Option.bind_eq_bind]
    all_goals first
      | exact ⟨trivial, h2⟩
      | (rw [subU_some (by omega), Option.bind_some, subU_some (by omega), Option.bind_some, subU_some (by omega)]; exact ⟨rfl, by omega⟩)
      | (rw [subU_some (by omega), Option.bind_some, subU_some (by omega)]; exact ⟨rfl, by omega⟩)
  refine ⟨hp.1, ?_⟩
  unfold Opts.paddedU16 addU16
  rw [hp.1]
  simp only [Option.bind_eq_bind, Option.bind_some]
  rw [if_pos (by omega)]

/-- Buffers exist exactly for block sizes up to 1425. -/
theorem createMaxBuffer_iff (block : Nat) : (createMaxBuffer block = some (recvBuffer block) ↔ block ≤ 1425) ∧
    (createMaxBuffer block = none ↔ 1425 < block) := by
  unfold createMaxBuffer addU16 recvBuffer
  by_cases h : block + 4 < 65536
  · rw [if_pos h]
    simp only
    by_cases h2 : max (block + 4) 516 ≤ 1429
    · rw [if_pos h2]; exact ⟨⟨fun _ => by omega, fun _ => rfl⟩, ⟨(fun x => by cases x), fun x => by omega⟩⟩
    · rw [if_neg h2]; exact ⟨⟨(fun x => by cases x), fun x => by omega⟩, ⟨fun _ => by omega, fun _ => rfl⟩⟩
  · rw [if_neg h]; exact ⟨⟨(fun x => by cases x), fun x => by omega⟩, ⟨fun _ => by omega, fun _ => rfl⟩⟩

/-- Specification: the sizes of a transfer with these options are computed without overflow and as in the model, and the buffers hold its blocks. -/
structure Spec.SizesComputed (o : Opts) : Prop where
  buffer : ∃ n, createMaxBuffer o.blockSize = some n ∧ o.blockSize + 4 ≤ n ∧ n ≤ 1429
  payload : ∃ p, o.payloadU16 = some p ∧ p = o.payload ∧ 471 ≤ p ∧ p ≤ o.blockSize
  padded : ∃ p, o.paddedU16 = some p ∧ p ≤ o.blockSize + 4

theorem sizesComputed {o : Opts} (h : 512 ≤ o.blockSize ∧ o.blockSize ≤ 1425) : SizesComputed o := by
  obtain ⟨h1, h2⟩ := payloadU16_eq o (by omega) (by omega)
  have hp : 471 ≤ o.payload ∧ o.payload ≤ o.blockSize := by unfold Opts.payload; split <;> omega
  refine ⟨⟨_, (createMaxBuffer_iff _).1.mpr h.2, ?_, ?_⟩, ⟨_, h1, rfl, hp⟩, ⟨_, h2, by omega⟩⟩ <;> (unfold recvBuffer; omega)

/-- **C90**: the server. Started from the command line its own buffers exist, and for every connection it ever accepts (in both servers connections come
from `newConn`) all sizes are computed without overflow. -/
theorem c90_server {S} {v : Srv S} {a : ServerArgs} {files : Bytes → Option Bytes} {signer : Bytes → AuthKey S} (h : StartedWith v a files signer) :
    (∃ n, createMaxBuffer v.cfg.maxBlock = some n ∧ v.cfg.maxBlock + 4 ≤ n ∧ n ≤ 1429) ∧
      ∀ t dg io c out, (v.newConn t dg io).result = .ok (c, out) → SizesComputed c.opts := by
  obtain ⟨-, h2, h3, -, h5, h6, -⟩ := started_with h
  constructor
  · refine ⟨_, (createMaxBuffer_iff _).1.mpr (by omega), ?_, ?_⟩ <;> (unfold recvBuffer; omega)
  · intro t dg io c out hn
    obtain ⟨write, r, used, keys, name, kind, -, g2, -⟩ := newConn_ok hn
    have := (c16_server_limits v.cfg (by omega) (by omega) io.sessionPub _ r.exts kind used c.opts keys g2).1
    exact sizesComputed (by omega)

/-- **C90**: the client. Started from the command line, the buffers for the request exist, and whatever the server answers, the sizes of the transfer are
computed without overflow. -/
theorem c90_client {S} {a : ClientArgs} {files : Bytes → Option Bytes} {signer : Bytes → AuthKey S} {lookup : Bytes → Nat → List Ep} {c : ClientSetup S}
    (v : Cli S) (j : Job) (h : a.config j.write files signer lookup = some c) (ho : j.opts = c.opts) :
    SizesComputed (v.requestOpts j) ∧ SizesComputed j.opts ∧
      ∀ used initial b ack o rk first, v.reply j.write (v.requestOpts j) used initial b = .accept ack o rk first → SizesComputed o := by
  obtain ⟨h1, -, -, h4, -⟩ := c66_values h
  have hj : j.opts.blockSize = a.blockSize := by rw [ho, h4]
  have hr := requestOpts_block v j
  refine ⟨sizesComputed (by omega), sizesComputed (by omega), ?_⟩
  intro used initial b ack o rk first hacc
  obtain ⟨g1, g2, -⟩ := accept_fine v j hacc
  exact sizesComputed (by omega)

/-- **C90**: the library without the command line. A block size above 1425 in the configuration ends the process when the buffer is made; without
overflow checks the largest four instead give buffers of 516 bytes, too small for the blocks. -/
theorem c90_library (block : Nat) (h : 1425 < block) (h2 : block < 65536) :
    createMaxBuffer block = none ∧ wrapBuffer block = if 65532 ≤ block then some 516 else none := by
  refine ⟨(createMaxBuffer_iff block).2.mpr h, ?_⟩
  unfold wrapBuffer
  split <;> split <;> first | rfl | (congr 1; omega) | omega

end Tftp

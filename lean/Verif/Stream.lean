import Verif.Bytes
import Verif.Writer
import Verif.WindowSpec
/-
C36: src/readers/encrypted_stream_reader.rs, src/writers/encrypted_stream_writer.rs, src/encryption.rs:193-262: a file which is
encrypted while it is read and decrypted while it is written. (`alloc`: the block buffer can have any size.)
-/
namespace Tftp

/-- The STREAM construction with a 32 bit counter over an AEAD with a fixed key (`aead::stream::{Encryptor, Decryptor}BE32`):
nonce, position, last block?, text. The tag is part of the ciphertext. -/
structure StreamAead where
  enc : (nonce : Bytes) → (pos : Nat) → (last : Bool) → Bytes → Bytes
  dec : (nonce : Bytes) → (pos : Nat) → (last : Bool) → Bytes → Option Bytes
  enc_length : ∀ n i l p, (enc n i l p).length = p.length + 16
  dec_enc : ∀ n i l p, dec n i l (enc n i l p) = some p
  dec_length : ∀ n i l c p, dec n i l c = some p → c.length = p.length + 16

/-- `StreamPrimitive::COUNTER_MAX` of `StreamBE32`: this position is reserved for a last block. -/
def streamMax : Nat := 2 ^ 32 - 1

/-- `MIN_STREAM_CAPACITY` (encryption.rs:45-51) is 2 + 19 + 16. -/
def minStream : Nat := 37

inductive StreamErr | unsupported | invalidData | io
deriving DecidableEq

/-- encryption.rs:193-228 `StreamEncryptor`: the position, `none` after the last block. A block is `next` if it has the full size.
-/
def streamEncrypt (A : StreamAead) (nonce : Bytes) (st : Option Nat) (b : Bytes) (size : Nat) : Option Nat × Except StreamErr Bytes :=
  match st with
  | none => (none, .error .unsupported)
  | some i =>
    if size = b.length then
      if i = streamMax then (some i, .error .invalidData) else (some (i + 1), .ok (A.enc nonce i false b))
    else (none, .ok (A.enc nonce i true b))

/-- encryption.rs:230-262 `StreamDecryptor`. -/
def streamDecrypt (A : StreamAead) (nonce : Bytes) (st : Option Nat) (b : Bytes) (size : Nat) : Option Nat × Except StreamErr Bytes :=
  match st with
  | none => (none, .error .unsupported)
  | some i =>
    if size = b.length then
      if i = streamMax then (some i, .error .invalidData)
      else match A.dec nonce i false b with
        | some p => (some (i + 1), .ok p)
        | none => (some i, .error .invalidData)
    else match A.dec nonce i true b with
      | some p => (none, .ok p)
      | none => (none, .error .invalidData)

/-! ### The reader -/

/-- encrypted_stream_reader.rs:21-38: `StreamReader` over a file of which `rest` has not been read. `header`: the nonce has not yet been delivered
(the field `nonce` is taken with the first block). -/
structure StreamIn where
  pos : Option Nat
  nonce : Bytes
  header : Bool
  rest : Bytes

/-- encrypted_stream_reader.rs:40-89 `read` with a buffer of `len` bytes; the inner read gives at most `k` bytes, or fails
(`none`). The first block begins with the block size and the nonce. -/
def StreamIn.read (A : StreamAead) (s : StreamIn) (len : Nat) (k : Option Nat) : StreamIn × Except StreamErr Bytes :=
  if len < minStream ∨ len > 1425 then (s, .error .unsupported)
  else
    let head := if s.header then be16 (UInt16.ofNat len) ++ s.nonce else []
    let size := len - 16 - head.length
    match k with
    | none => (s, .error .io)
    | some k =>
      let b := s.rest.take (min k size)
      let s := { s with rest := s.rest.drop b.length }
      match streamEncrypt A s.nonce s.pos b size with
      | (pos, .error e) => ({ s with pos := pos }, .error e)
      | (pos, .ok c) => ({ s with pos := pos, header := false }, .ok (head ++ c))

/-- A new reader (std-binary/src/encryption_io.rs:38-56). -/
def StreamIn.new (nonce file : Bytes) : StreamIn := ⟨some 0, nonce, true, file⟩

/-! ### The writer -/

/-- encrypted_stream_writer.rs:19-37: `StreamWriter` over a file `out`. `header`: the key is still there, so a block with header is expected;
`dec`: nonce and position of the decryptor, `size`: the block size of the header. -/
structure StreamOut where
  dec : Option (Bytes × Option Nat)
  header : Bool
  size : Option Nat
  out : Bytes

/-- encrypted_stream_writer.rs:27-37 `new`. -/
def StreamOut.new : StreamOut := ⟨none, true, none, []⟩

/-- encrypted_stream_writer.rs:41-64: the header. -/
def StreamOut.parse (s : StreamOut) (data : Bytes) : Except StreamErr (StreamOut × Nat) :=
  if s.header then
    match readU16 data with
    | none => .error .invalidData
    | some size =>
      if size.toNat < minStream ∨ size.toNat > 1425 then .error .invalidData
      else if data.length < 21 then .error .invalidData
      else .ok ({ s with dec := some ((data.drop 2).take 19, some 0), size := some size.toNat }, 21)
  else .ok (s, 0)

/-- encrypted_stream_writer.rs:40-99 `write`; `io`: what the inner writer does with the plain text. The result is the number of bytes
accepted. -/
def StreamOut.write (A : StreamAead) (s : StreamOut) (data : Bytes) (io : WriteIo) : StreamOut × Except StreamErr Nat :=
  match s.parse data with
  | .error e => (s, .error e)
  | .ok (s, from') =>
    match s.size, s.dec with
    | some size, some (nonce, pos) =>
      let body := data.drop from'
      if body.length > size then (s, .error .invalidData)
      else match streamDecrypt A nonce pos body (size - from') with
        | (pos, .error e) => ({ s with dec := some (nonce, pos) }, .error e)
        | (pos, .ok p) =>
          let s := { s with dec := some (nonce, pos) }
          match io.taken p with
          | some w => ({ s with out := s.out ++ w, header := false }, .ok (w.length + from' + 16))
          | none => (s, .error .io)
    | _, _ => (s, .error .unsupported)

/-- Calls of `read`, each with a buffer of `len` bytes. -/
def StreamIn.reads (A : StreamAead) (len : Nat) (s : StreamIn) : List (Option Nat) → StreamIn × List (Except StreamErr Bytes)
  | [] => (s, [])
  | k :: ks =>
    let (s', r) := s.read A len k
    let (s'', rs) := s'.reads A len ks
    (s'', r :: rs)

/-- Calls of `write`. -/
def StreamOut.writes (A : StreamAead) (s : StreamOut) : List (Bytes × WriteIo) → StreamOut × List (Except StreamErr Nat)
  | [] => (s, [])
  | x :: xs =>
    let (s', r) := s.write A x.1 x.2
    let (s'', rs) := s'.writes A xs
    (s'', r :: rs)

/-- Specification: all blocks are full except the last, which is shorter. -/
def Spec.Blocks (len : Nat) : List Bytes → Prop
  | [] => False
  | [b] => b.length < len
  | b :: bs => b.length = len ∧ Spec.Blocks len bs

/-- Specification: the calls `reads` of a stream reader give `blocks`, the calls of a stream writer with them succeed, each taking
the whole block, and add `plain` to the file; afterwards both are at their end: every further call fails. -/
structure Spec.Conveys (A : StreamAead) (len : Nat) (r : StreamIn) (w : StreamOut) (plain : Bytes) (blocks : List Bytes) : Prop where
  shape : Spec.Blocks len blocks
  read : (r.reads A len (blocks.map fun _ => some len)).2 = blocks.map .ok
  written : (w.writes A (blocks.map (·, WriteIo.all))).2 = blocks.map fun b => .ok b.length
  out : (w.writes A (blocks.map (·, WriteIo.all))).1.out = w.out ++ plain
  readEnd : ∀ k, ∃ e, ((r.reads A len (blocks.map fun _ => some len)).1.read A len k).2 = .error e
  writeEnd : ∀ d io, ∃ e, ((w.writes A (blocks.map (·, WriteIo.all))).1.write A d io).2 = .error e

theorem conveys_cons {A : StreamAead} {len : Nat} {r r' : StreamIn} {w w' : StreamOut} {p q : Bytes} {b : Bytes} {blocks : List Bytes}
    (hb : b.length = len) (hr : r.read A len (some len) = (r', .ok b)) (hw : w.write A b .all = (w', .ok b.length)) (ho : w'.out = w.out ++ p)
    (h : Spec.Conveys A len r' w' q blocks) : Spec.Conveys A len r w (p ++ q) (b :: blocks) := by
  obtain ⟨h1, h2, h3, h4, h5, h6⟩ := h
  refine ⟨?_, ?_, ?_, ?_, ?_, ?_⟩
  · cases blocks with
    | nil => cases h1
    | cons c cs => exact ⟨hb, h1⟩
  · simp [StreamIn.reads, hr, h2]
  · simp [StreamOut.writes, hw, h3]
  · simp [StreamOut.writes, hw, h4, ho]
  · simpa [StreamIn.reads, hr] using h5
  · simpa [StreamOut.writes, hw] using h6

theorem conveys_last {A : StreamAead} {len : Nat} {r r' : StreamIn} {w w' : StreamOut} {p : Bytes} {b : Bytes}
    (hb : b.length < len) (hr : r.read A len (some len) = (r', .ok b)) (hw : w.write A b .all = (w', .ok b.length)) (ho : w'.out = w.out ++ p)
    (hre : r'.pos = none) (hwe : w'.header = false ∧ ∃ n, w'.dec = some (n, none)) : Spec.Conveys A len r w p [b] := by
  refine ⟨hb, by simp [StreamIn.reads, hr], by simp [StreamOut.writes, hw], by simp [StreamOut.writes, hw, ho], ?_, ?_⟩
  · intro k
    simp only [List.map_cons, List.map_nil, StreamIn.reads, hr]
    unfold StreamIn.read
    split
    · exact ⟨_, rfl⟩
    · cases k with
      | none => exact ⟨_, rfl⟩
      | some k =>
        simp only [hre, streamEncrypt]
        exact ⟨_, rfl⟩
  · intro d io
    obtain ⟨h1, n, h2⟩ := hwe
    simp only [List.map_cons, List.map_nil, StreamOut.writes, hw]
    unfold StreamOut.write StreamOut.parse
    rw [h1]
    simp only [Bool.false_eq_true, if_false, h2]
    split
    · split
      · exact ⟨_, rfl⟩
      · rename_i hd _
        cases hd
        simp only [streamDecrypt]
        exact ⟨_, rfl⟩
    · exact ⟨_, rfl⟩

/-- One block after the first, of both sides. -/
theorem stream_body (A : StreamAead) (len : Nat) (hlen : 37 ≤ len ∧ len ≤ 1425) (nonce : Bytes) (n : Nat) :
    ∀ (rest out : Bytes) (i : Nat), rest.length = n → i + rest.length / (len - 16) < streamMax →
    ∃ blocks, Spec.Conveys A len ⟨some i, nonce, false, rest⟩ ⟨some (nonce, some i), false, some len, out⟩ rest blocks := by
  induction n using Nat.strongRecOn with
  | ind n ih =>
    intro rest out i hn hi
    have hrange : ¬ (len < minStream ∨ len > 1425) := by unfold minStream; omega
    by_cases hfull : len - 16 ≤ rest.length
    · have htake : (rest.take (min len (len - 16))).length = len - 16 := by simp; omega
      have hmax : i ≠ streamMax := fun h => by have := Nat.le_add_right i (rest.length / (len - 16)); omega
      have hdiv : (rest.drop (len - 16)).length / (len - 16) + 1 = rest.length / (len - 16) := by
        rw [List.length_drop, ← Nat.add_div_right _ (by omega), Nat.sub_add_cancel hfull]
      obtain ⟨blocks, hc⟩ := ih (rest.drop (len - 16)).length (by simp; omega) (rest.drop (len - 16))
        (out ++ rest.take (min len (len - 16))) (i + 1) rfl (by omega)
      refine ⟨A.enc nonce i false (rest.take (min len (len - 16))) :: blocks, ?_⟩
      have e : rest.take (min len (len - 16)) ++ rest.drop (len - 16) = rest := by
        rw [Nat.min_eq_right (by omega), List.take_append_drop]
      conv => arg 5; rw [← e]
      have hl : (A.enc nonce i false (rest.take (min len (len - 16)))).length = len := by rw [A.enc_length, htake]; omega
      refine conveys_cons hl ?_ ?_ ?_ hc
      · simp only [StreamIn.read, if_neg hrange, Bool.false_eq_true, if_false, List.length_nil, Nat.sub_zero, streamEncrypt, htake,
          if_true, if_neg hmax, List.nil_append]
      · simp only [StreamOut.write, StreamOut.parse, Bool.false_eq_true, if_false, List.drop_zero, hl, gt_iff_lt, Nat.lt_irrefl, Nat.sub_zero,
          streamDecrypt, if_true, if_neg hmax, A.dec_enc, WriteIo.taken, htake, Nat.add_zero, Prod.mk.injEq, true_and]
        congr 1
        omega
      · rfl
    · have htake : rest.take (min len (len - 16)) = rest := List.take_of_length_le (by omega)
      have hne : ¬ len - 16 = rest.length := by omega
      have hl : (A.enc nonce i true rest).length = rest.length + 16 := A.enc_length _ _ _ _
      refine ⟨[A.enc nonce i true rest], conveys_last (by omega) (r' := ⟨none, nonce, false, []⟩)
        (w' := ⟨some (nonce, none), false, some len, out ++ rest⟩) ?_ ?_ rfl rfl ⟨rfl, nonce, rfl⟩⟩
      · simp only [StreamIn.read, if_neg hrange, Bool.false_eq_true, if_false, List.length_nil, Nat.sub_zero, streamEncrypt, htake,
          if_neg hne, List.nil_append, List.drop_length]
      · have h1 : ¬ rest.length + 16 > len := by omega
        have h2 : ¬ len = rest.length + 16 := by omega
        simp only [StreamOut.write, StreamOut.parse, Bool.false_eq_true, if_false, List.drop_zero, hl, if_neg h1, Nat.sub_zero,
          streamDecrypt, if_neg h2, A.dec_enc, WriteIo.taken, Nat.add_zero]

/-- **C36**: a file read through an encrypting stream reader with buffers of `len` bytes (37 to 1425), until a block is not full,
and written block by block through a decrypting stream writer with the same key is restored byte for byte. Every block except the
last is full, each is accepted completely, and after the last one both sides refuse to go on. The only condition is that the
file has fewer blocks than the 32 bit counter. -/
theorem c36_round_trip (A : StreamAead) (nonce : Bytes) (hn : nonce.length = 19) (file : Bytes) (len : Nat) (hlen : 37 ≤ len ∧ len ≤ 1425)
    (hsize : file.length / (len - 16) + 1 < streamMax) :
    ∃ blocks, Spec.Conveys A len (StreamIn.new nonce file) StreamOut.new file blocks := by
  have hrange : ¬ (len < minStream ∨ len > 1425) := by unfold minStream; omega
  have hhead : (be16 (UInt16.ofNat len) ++ nonce).length = 21 := by simp [be16, hn]
  have hu : (UInt16.ofNat len).toNat = len := by simp; omega
  have hru : ∀ x : Bytes, readU16 (be16 (UInt16.ofNat len) ++ nonce ++ x) = some (UInt16.ofNat len) := by
    intro x
    rw [List.append_assoc]
    exact readU16_be16 _ _
  have hnon : ∀ x : Bytes, ((be16 (UInt16.ofNat len) ++ nonce ++ x).drop 2).take 19 = nonce := by
    intro x
    simp [be16, hn]
  have hdrop : ∀ x : Bytes, (be16 (UInt16.ofNat len) ++ nonce ++ x).drop 21 = x := by
    intro x
    rw [← hhead, List.drop_left]
  by_cases hfull : len - 37 ≤ file.length
  · have htake : (file.take (min len (len - 37))).length = len - 37 := by simp; omega
    obtain ⟨blocks, hc⟩ := stream_body A len hlen nonce _ (file.drop (len - 37)) (file.take (min len (len - 37))) 1 rfl (by
      have : (file.drop (len - 37)).length / (len - 16) ≤ file.length / (len - 16) := Nat.div_le_div_right (by simp)
      omega)
    have e : file.take (min len (len - 37)) ++ file.drop (len - 37) = file := by
      rw [Nat.min_eq_right (by omega), List.take_append_drop]
    refine ⟨(be16 (UInt16.ofNat len) ++ nonce ++ A.enc nonce 0 false (file.take (min len (len - 37)))) :: blocks, ?_⟩
    conv => arg 5; rw [← e]
    have hl : (be16 (UInt16.ofNat len) ++ nonce ++ A.enc nonce 0 false (file.take (min len (len - 37)))).length = len := by
      rw [List.length_append, hhead, A.enc_length, htake]; omega
    refine conveys_cons hl ?_ ?_ ?_ hc
    · simp only [StreamIn.new, StreamIn.read, if_neg hrange, if_true, hhead, show len - 16 - 21 = len - 37 by omega, streamEncrypt, htake]
      rfl
    · simp only [StreamOut.new, StreamOut.write, StreamOut.parse, if_true, hru, hu, if_neg hrange, hl, hnon]
      rw [if_neg (by omega)]
      simp only
      have h1 : (A.enc nonce 0 false (file.take (min len (len - 37)))).length = len - 21 := by rw [A.enc_length, htake]; omega
      rw [hdrop, if_neg (by rw [h1]; omega)]
      simp only [streamDecrypt, h1, if_true, if_neg (show ¬ 0 = streamMax by decide), A.dec_enc, WriteIo.taken, htake, List.nil_append]
      congr 2
      omega
    · rfl
  · have htake : file.take (min len (len - 37)) = file := List.take_of_length_le (by omega)
    have hne : ¬ len - 37 = file.length := by omega
    have hl : (be16 (UInt16.ofNat len) ++ nonce ++ A.enc nonce 0 true file).length = file.length + 37 := by
      rw [List.length_append, hhead, A.enc_length]; omega
    refine ⟨[be16 (UInt16.ofNat len) ++ nonce ++ A.enc nonce 0 true file], conveys_last (by omega) (r' := ⟨none, nonce, false, []⟩)
      (w' := ⟨some (nonce, none), false, some len, file⟩) ?_ ?_ rfl rfl ⟨rfl, nonce, rfl⟩⟩
    · simp only [StreamIn.new, StreamIn.read, if_neg hrange, if_true, hhead, show len - 16 - 21 = len - 37 by omega, streamEncrypt, htake,
        if_neg hne, List.drop_length]
    · simp only [StreamOut.new, StreamOut.write, StreamOut.parse, if_true, hru, hu, if_neg hrange, hl, hnon]
      rw [if_neg (by omega)]
      simp only
      have h1 : (A.enc nonce 0 true file).length = file.length + 16 := by rw [A.enc_length]
      rw [hdrop, if_neg (by rw [h1]; omega)]
      simp only [streamDecrypt, h1, if_neg (show ¬ len - 21 = file.length + 16 by omega), A.dec_enc, WriteIo.taken, List.nil_append]

theorem blocks_spec {len : Nat} (hl : 0 < len) {blocks : List Bytes} (h : Spec.Blocks len blocks) :
    Spec.nblocks blocks.flatten len = blocks.length ∧ ∀ i (hi : i < blocks.length), Spec.block blocks.flatten len (i + 1) = blocks[i] := by
  induction blocks with
  | nil => cases h
  | cons b bs ih =>
    cases bs with
    | nil =>
      have h : b.length < len := h
      refine ⟨by simp [Spec.nblocks, Nat.div_eq_of_lt h], fun i hi => ?_⟩
      have : i = 0 := by simp at hi; omega
      subst this
      simp [Spec.block, List.take_of_length_le (Nat.le_of_lt h)]
    | cons c cs =>
      obtain ⟨h1, h2⟩ := h
      obtain ⟨i1, i2⟩ := ih h2
      constructor
      · unfold Spec.nblocks at i1 ⊢
        rw [List.flatten_cons, List.length_append, h1, Nat.add_div_left _ hl, List.length_cons, ← i1]
      · intro i hi
        cases i with
        | zero => simp [Spec.block, ← h1]
        | succ i =>
          have := i2 i (by simpa using hi)
          rw [List.getElem_cons_succ, ← this]
          unfold Spec.block
          rw [List.flatten_cons]
          have e : (i + 1 + 1 - 1) * len = b.length + (i + 1 - 1) * len := by
            simp only [Nat.add_sub_cancel, Nat.add_mul, Nat.one_mul, h1]
            omega
          rw [e, List.drop_append, Nat.add_sub_cancel_left, List.drop_of_length_le (by omega), List.nil_append]

/-- **C36**: seen from the transfer, an encrypted file is an ordinary file (`cipher`): its blocks, as the protocol numbers them, are
the blocks which the stream reader gives and the stream writer takes. So C11 to C14, which speak about files and their blocks,
apply to transfers of encrypted files, and what arrives decrypts to the original. -/
theorem c36_as_file (A : StreamAead) (nonce : Bytes) (hn : nonce.length = 19) (file : Bytes) (len : Nat) (hlen : 37 ≤ len ∧ len ≤ 1425)
    (hsize : file.length / (len - 16) + 1 < streamMax) :
    ∃ cipher : Bytes,
      (∀ i, i < Spec.nblocks cipher len → ((StreamIn.new nonce file).reads A len (List.replicate (Spec.nblocks cipher len) (some len))).2[i]? =
        some (.ok (Spec.block cipher len (i + 1)))) ∧
      (StreamOut.new.writes A ((List.range (Spec.nblocks cipher len)).map fun i => (Spec.block cipher len (i + 1), WriteIo.all))).1.out = file ∧
      (StreamOut.new.writes A ((List.range (Spec.nblocks cipher len)).map fun i => (Spec.block cipher len (i + 1), WriteIo.all))).2 =
        (List.range (Spec.nblocks cipher len)).map fun i => .ok (Spec.block cipher len (i + 1)).length := by
  obtain ⟨blocks, h1, h2, h3, h4, -, -⟩ := c36_round_trip A nonce hn file len hlen hsize
  obtain ⟨b1, b2⟩ := blocks_spec (by omega) h1
  have hr : List.replicate blocks.length (some len) = blocks.map fun _ => some len := by simp [List.map_const']
  have hb : blocks = (List.range blocks.length).map fun i => Spec.block blocks.flatten len (i + 1) := by
    apply List.ext_getElem
    · simp
    · intro i h _
      simp [b2 i h]
  refine ⟨blocks.flatten, ?_, ?_, ?_⟩
  · rw [b1, hr, h2]
    intro i hi
    rw [b2 i hi]
    simp [hi]
  · rw [b1]
    have e : (List.range blocks.length).map (fun i => (Spec.block blocks.flatten len (i + 1), WriteIo.all)) = blocks.map (·, WriteIo.all) := by
      conv => rhs; rw [hb]
      simp
    rw [e, h4]
    rfl
  · rw [b1]
    have e : (List.range blocks.length).map (fun i => (Spec.block blocks.flatten len (i + 1), WriteIo.all)) = blocks.map (·, WriteIo.all) := by
      conv => rhs; rw [hb]
      simp
    have e2 : ((List.range blocks.length).map fun i => (.ok (Spec.block blocks.flatten len (i + 1)).length : Except StreamErr Nat)) =
        blocks.map fun b => .ok b.length := by
      conv => rhs; rw [hb]
      simp
    rw [e, h3, e2]

/-- **C36**: a failed read of the inner file (for example `WouldBlock`) changes nothing: the block can be read again. -/
theorem c36_failed_read_harmless (A : StreamAead) (s : StreamIn) (len : Nat) : (s.read A len none).1 = s := by
  unfold StreamIn.read
  split <;> rfl

/-- **C36**, finding: if the inner file gives fewer bytes than asked for (a short read, which `Read` allows) before its end, the
block is encrypted as the last one and the rest of the file can not be read any more. -/
theorem c36_short_read_truncates (A : StreamAead) (nonce file : Bytes) (hn : nonce.length = 19) (len k : Nat) (hlen : 37 ≤ len ∧ len ≤ 1425)
    (hk : k < len - 37) (hf : k < file.length) :
    ∃ s c, (StreamIn.new nonce file).read A len (some k) = (s, .ok c) ∧ c.length < len ∧ s.rest ≠ [] ∧
      ∀ k', ∃ e, (s.read A len k').2 = .error e := by
  have hrange : ¬ (len < minStream ∨ len > 1425) := by unfold minStream; omega
  have hhead : (be16 (UInt16.ofNat len) ++ nonce).length = 21 := by simp [be16, hn]
  have htake : (file.take (min k (len - 37))).length = k := by simp; omega
  refine ⟨⟨none, nonce, false, file.drop k⟩, be16 (UInt16.ofNat len) ++ nonce ++ A.enc nonce 0 true (file.take (min k (len - 37))), ?_, ?_, ?_, ?_⟩
  · simp only [StreamIn.new, StreamIn.read, if_neg hrange, if_true, hhead, show len - 16 - 21 = len - 37 by omega, streamEncrypt, htake,
      if_neg (show ¬ len - 37 = k by omega)]
  · rw [List.length_append, hhead, A.enc_length, htake]; omega
  · intro h
    have := congrArg List.length h
    simp at this
    omega
  · intro k'
    unfold StreamIn.read
    split
    · exact ⟨_, rfl⟩
    · cases k' with
      | none => exact ⟨_, rfl⟩
      | some k' => exact ⟨_, rfl⟩

/-- A cipher for examples: the identity with a constant tag. -/
def Toy.stream : StreamAead := ⟨fun _ _ _ p => p ++ List.replicate 16 0, fun _ _ _ c => if c.length < 16 then none else some (c.take (c.length - 16)),
  by simp, by simp, by
    intro _ _ _ c p h
    split at h
    · cases h
    · simp only [Option.some.injEq] at h
      rw [← h, List.length_take]
      omega⟩

/-- C36: the file 1, ..., 60 in blocks of 40 bytes: 3 + 24 + 24 + 9 bytes of plain text; and a file of exactly 27 = 3 + 24 bytes, which ends
with an empty block. -/
example : let f : Bytes := (List.range 60).map UInt8.ofNat
    f.length / (40 - 16) + 1 < streamMax ∧
    ((StreamIn.new (List.replicate 19 7) f).reads Toy.stream 40 (List.replicate 5 (some 40))).2.map (fun r => match r with | .ok b => b.length | _ => 0) =
      [40, 40, 40, 25, 0] ∧
    ((StreamIn.new (List.replicate 19 7) (f.take 27)).reads Toy.stream 40 (List.replicate 4 (some 40))).2.map
      (fun r => match r with | .ok b => b.length | _ => 0) = [40, 40, 16, 0] := by
  decide +kernel

end Tftp

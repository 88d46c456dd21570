import Verif.Stream
/-
C56: encrypted files. What is sent and stored for a file which the client encrypts with its `encryption_key` (std-binary/src/sender.rs:72-84,
std-binary/src/encryption_io.rs:38-56), and what the decrypting writer (std-binary/src/receiver.rs:68-80,
std-binary/src/encryption_io.rs:24-36) makes of arbitrary data.
-/
namespace Tftp

/-! ### Specification -/

/-- The number of file bytes in the first `k` of the pieces which go into blocks of `len` bytes: each block has a tag of 16 bytes, the first one also a
header of 21 bytes. -/
def Spec.cut (len k : Nat) : Nat := k * (len - 16) - 21

/-- The `k`-th piece of the file, counted from 0. -/
def Spec.piece (file : Bytes) (len k : Nat) : Bytes := (file.take (Spec.cut len (k + 1))).drop (Spec.cut len k)

/-- The number of pieces. The last one is shorter than the others (maybe empty). -/
def Spec.pieces (file : Bytes) (len : Nat) : Nat := (file.length + 21) / (len - 16) + 1

/-- The `k`-th encrypted piece. -/
def Spec.sealedPiece (A : StreamAead) (nonce file : Bytes) (len k : Nat) : Bytes :=
  A.enc nonce k (decide (k + 1 = Spec.pieces file len)) (Spec.piece file len k)

/-- The encrypted file: block size, nonce, encrypted pieces. -/
def Spec.sealed (A : StreamAead) (nonce file : Bytes) (len : Nat) : Bytes :=
  be16 (UInt16.ofNat len) ++ nonce ++ ((List.range (Spec.pieces file len)).map (Spec.sealedPiece A nonce file len)).flatten

/-- A file somebody who has the key has encrypted. -/
structure Upload where
  nonce : Bytes
  file : Bytes
  len : Nat

/-- The limits of the format; the number of blocks is limited by the 32 bit counter. -/
structure Upload.Fits (u : Upload) : Prop where
  nonce : u.nonce.length = 19
  len : 37 ≤ u.len ∧ u.len ≤ 1425
  size : Spec.pieces u.file u.len < streamMax

/-! ### Pieces -/

open Spec

theorem cut_le (len k : Nat) : cut len k ≤ cut len (k + 1) := by
  unfold cut
  rw [Nat.succ_mul]
  omega

theorem take_piece (file : Bytes) (len k : Nat) : file.take (cut len k) ++ piece file len k = file.take (cut len (k + 1)) := by
  have : file.take (cut len k) = (file.take (cut len (k + 1))).take (cut len k) := by
    rw [List.take_take, Nat.min_eq_left (cut_le len k)]
  unfold piece
  rw [this, List.take_append_drop]

theorem cut_pieces {file : Bytes} {len : Nat} (hl : 37 ≤ len) : file.length < cut len (pieces file len) := by
  unfold cut pieces
  have h1 := Nat.div_add_mod (file.length + 21) (len - 16)
  have h2 := Nat.mod_lt (file.length + 21) (show len - 16 > 0 by omega)
  rw [Nat.succ_mul, Nat.mul_comm]
  omega

theorem cut_before {file : Bytes} {len k : Nat} (_ : 37 ≤ len) (hk : k < pieces file len) : cut len k ≤ file.length := by
  unfold pieces at hk
  unfold cut
  have h1 := Nat.div_add_mod (file.length + 21) (len - 16)
  have h2 : k * (len - 16) ≤ (file.length + 21) / (len - 16) * (len - 16) := Nat.mul_le_mul_right _ (by omega)
  rw [Nat.mul_comm ((file.length + 21) / (len - 16))] at h2
  omega

/-- The room for file bytes in a block. -/
theorem cut_step {len k : Nat} (hl : 37 ≤ len) : cut len (k + 1) - cut len k = len - 16 - if k = 0 then 21 else 0 := by
  unfold cut
  rw [Nat.succ_mul]
  split
  · subst k; omega
  · have : 1 * (len - 16) ≤ k * (len - 16) := Nat.mul_le_mul_right _ (by omega)
    omega

theorem piece_full {file : Bytes} {len k : Nat} (hl : 37 ≤ len) (hk : k + 1 < pieces file len) :
    (piece file len k).length = len - 16 - if k = 0 then 21 else 0 := by
  unfold piece
  rw [List.length_drop, List.length_take, Nat.min_eq_left (cut_before hl hk), cut_step hl]

theorem piece_short {file : Bytes} {len k : Nat} (hl : 37 ≤ len) (hk : k + 1 = pieces file len) :
    (piece file len k).length < len - 16 - if k = 0 then 21 else 0 := by
  have h1 := cut_pieces (file := file) hl
  have h2 := cut_before (file := file) (k := k) hl (by omega)
  unfold piece
  rw [List.length_drop, List.length_take, ← cut_step hl, hk]
  omega

theorem take_all {file : Bytes} {len : Nat} (hl : 37 ≤ len) : file.take (cut len (pieces file len)) = file :=
  List.take_of_length_le (Nat.le_of_lt (cut_pieces hl))

/-- The `k`-th block. -/
def sealedBlock (A : StreamAead) (u : Upload) (k : Nat) : Bytes :=
  (if k = 0 then be16 (UInt16.ofNat u.len) ++ u.nonce else []) ++ sealedPiece A u.nonce u.file u.len k

theorem head_length {u : Upload} (h : u.Fits) : (be16 (UInt16.ofNat u.len) ++ u.nonce).length = 21 := by
  simp [be16, h.nonce]

theorem sealedBlock_length {A : StreamAead} {u : Upload} (h : u.Fits) (k : Nat) :
    (sealedBlock A u k).length = (piece u.file u.len k).length + 16 + if k = 0 then 21 else 0 := by
  unfold sealedBlock sealedPiece
  rw [List.length_append, A.enc_length]
  split
  · rw [head_length h]; omega
  · simp

theorem sealedBlock_full {A : StreamAead} {u : Upload} (h : u.Fits) {k : Nat} (hk : k + 1 < pieces u.file u.len) :
    (sealedBlock A u k).length = u.len := by
  have := h.len
  rw [sealedBlock_length h, piece_full h.len.1 hk]
  split <;> omega

theorem sealedBlock_short {A : StreamAead} {u : Upload} (h : u.Fits) {k : Nat} (hk : k + 1 = pieces u.file u.len) :
    (sealedBlock A u k).length < u.len := by
  have := h.len
  have := piece_short h.len.1 hk
  rw [sealedBlock_length h]
  split <;> simp_all <;> omega

theorem sealedBlocks_shape {A : StreamAead} {u : Upload} (h : u.Fits) (n k : Nat) (hn : n + k + 1 = pieces u.file u.len) :
    Blocks u.len ((List.range' k (n + 1)).map (sealedBlock A u)) := by
  induction n generalizing k with
  | zero => exact sealedBlock_short h (by omega)
  | succ n ih =>
    rw [List.range'_succ, List.map_cons]
    have := ih (k + 1) (by omega)
    rw [List.range'_succ, List.map_cons] at this ⊢
    exact ⟨sealedBlock_full h (by omega), this⟩

theorem sealed_flatten {A : StreamAead} (u : Upload) :
    sealed A u.nonce u.file u.len = ((List.range (pieces u.file u.len)).map (sealedBlock A u)).flatten := by
  obtain ⟨n, hn⟩ : ∃ n, pieces u.file u.len = n + 1 := ⟨_, rfl⟩
  unfold sealed
  rw [hn, List.range_succ_eq_map, List.map_cons, List.map_cons, List.flatten_cons, List.flatten_cons, List.map_map, List.map_map, ← List.append_assoc]
  rfl

/-- The blocks of the encrypted file, as the protocol cuts it, are the encrypted pieces. -/
theorem sealed_blocks {A : StreamAead} {u : Upload} (h : u.Fits) :
    nblocks (sealed A u.nonce u.file u.len) u.len = pieces u.file u.len ∧
    ∀ k, k < pieces u.file u.len → block (sealed A u.nonce u.file u.len) u.len (k + 1) = sealedBlock A u k := by
  obtain ⟨n, hn⟩ : ∃ n, pieces u.file u.len = n + 1 := ⟨_, rfl⟩
  have hs := sealedBlocks_shape (A := A) h n 0 (by omega)
  rw [← List.range_eq_range', ← hn] at hs
  have := h.len
  obtain ⟨b1, b2⟩ := blocks_spec (by omega) hs
  rw [← sealed_flatten] at b1 b2
  refine ⟨by simpa using b1, fun k hk => ?_⟩
  have := b2 k (by simpa using hk)
  simpa using this

/-! ### The reader -/

/-- The reader after `k` blocks. -/
def readAt (u : Upload) (k : Nat) : StreamIn :=
  ⟨if k < pieces u.file u.len then some k else none, u.nonce, decide (k = 0), u.file.drop (cut u.len k)⟩

theorem readAt_zero (u : Upload) : readAt u 0 = StreamIn.new u.nonce u.file := by
  simp [readAt, StreamIn.new, cut, pieces]

theorem read_step {A : StreamAead} {u : Upload} (h : u.Fits) {k : Nat} (hk : k < pieces u.file u.len) :
    (readAt u k).read A u.len (some u.len) = (readAt u (k + 1), .ok (sealedBlock A u k)) := by
  have hl := h.len
  have hrange : ¬ (u.len < minStream ∨ u.len > 1425) := by unfold minStream; omega
  have hhead : (if decide (k = 0) = true then be16 (UInt16.ofNat u.len) ++ u.nonce else []).length = if k = 0 then 21 else 0 := by
    by_cases h0 : k = 0
    · simp only [h0, decide_true, if_true]; exact head_length h
    · simp [h0]
  have hstep := cut_step (k := k) hl.1
  have hp : (u.file.drop (cut u.len k)).take (u.len - 16 - if k = 0 then 21 else 0) = piece u.file u.len k := by
    unfold piece
    rw [List.drop_take, hstep]
  have hmin : min u.len (u.len - 16 - if k = 0 then 21 else 0) = u.len - 16 - if k = 0 then 21 else 0 := by omega
  have hmax : ¬ k = streamMax := by have := h.size; omega
  simp only [readAt, StreamIn.read, if_neg hrange, hhead, hmin, hp, if_pos hk, streamEncrypt]
  have hd : (u.file.drop (cut u.len k)).drop (piece u.file u.len k).length = u.file.drop (cut u.len (k + 1)) := by
    have h1 := cut_le u.len k
    rw [List.drop_drop]
    unfold piece
    rw [List.length_drop, List.length_take]
    by_cases hc : cut u.len (k + 1) ≤ u.file.length
    · rw [Nat.min_eq_left hc]; congr 1; omega
    · have h2 := cut_before hl.1 hk
      rw [List.drop_of_length_le (by omega), List.drop_of_length_le (by omega)]
  have hblock : (if decide (k = 0) = true then be16 (UInt16.ofNat u.len) ++ u.nonce else []) = if k = 0 then be16 (UInt16.ofNat u.len) ++ u.nonce else [] := by
    simp
  by_cases hl1 : k + 1 = pieces u.file u.len
  · have hs := piece_short hl.1 hl1
    rw [if_neg (by omega), hd, hblock]
    simp [sealedBlock, sealedPiece, hl1]
    omega
  · have hf := piece_full (k := k) (file := u.file) hl.1 (by omega)
    rw [if_pos hf.symm, if_neg hmax, hd, hblock]
    have : k + 1 < pieces u.file u.len := by omega
    simp [sealedBlock, sealedPiece, hl1, this]

theorem reads_from {A : StreamAead} {u : Upload} (h : u.Fits) (n k : Nat) (hn : k + n ≤ pieces u.file u.len) :
    (readAt u k).reads A u.len (List.replicate n (some u.len)) = (readAt u (k + n), (List.range' k n).map fun i => .ok (sealedBlock A u i)) := by
  induction n generalizing k with
  | zero => rfl
  | succ n ih =>
    rw [List.replicate_succ, StreamIn.reads, read_step h (by omega)]
    simp only
    rw [ih (k + 1) (by omega), List.range'_succ, List.map_cons]
    rw [show k + 1 + n = k + (n + 1) by omega]

/-- **C56**: the blocks which the client sends for a file it encrypts are the blocks of the encrypted file, `Spec.sealed`; so the theorems about uploads
(C11 to C14, C52) hold for it, and a server which stores what it receives stores `Spec.sealed`. -/
theorem c56_upload_is_sealed {A : StreamAead} {u : Upload} (h : u.Fits) :
    ((StreamIn.new u.nonce u.file).reads A u.len (List.replicate (nblocks (sealed A u.nonce u.file u.len) u.len) (some u.len))).2 =
      (List.range (nblocks (sealed A u.nonce u.file u.len) u.len)).map fun i => .ok (block (sealed A u.nonce u.file u.len) u.len (i + 1)) := by
  obtain ⟨h1, h2⟩ := sealed_blocks (A := A) h
  rw [h1, ← readAt_zero, reads_from h _ 0 (by omega), List.range_eq_range']
  apply List.map_congr_left
  intro i hi
  rw [h2 i (by simp only [List.mem_range'_1] at hi; omega)]

/-! ### The writer -/

/-- The writer after `k` blocks of the file; `size` is the block size in the header it has seen. -/
structure WroteAt (u : Upload) (k : Nat) (s : StreamOut) : Prop where
  pos : 0 < k
  le : k ≤ pieces u.file u.len
  header : s.header = false
  out : s.out = u.file.take (cut u.len k)
  dec : s.dec = some (u.nonce, if k < pieces u.file u.len then some k else none)
  size : ∃ z, s.size = some z ∧ (k < pieces u.file u.len → z = u.len)

theorem WroteAt.complete {u : Upload} (h : u.Fits) {k : Nat} {s : StreamOut} (hs : WroteAt u k s) (hk : k = pieces u.file u.len) : s.out = u.file := by
  rw [hs.out, hk, take_all h.len.1]

/-- Specification: nobody but those who have made the uploads `us` could make `c`: if it decrypts, as a block of a stream with any nonce, at any
position, as last block or not, then it is that encrypted piece of that upload. -/
def Spec.Unforged (A : StreamAead) (us : List Upload) (c : Bytes) : Prop :=
  ∀ nonce k last p, A.dec nonce k last c = some p →
    ∃ u ∈ us, u.nonce = nonce ∧ k < pieces u.file u.len ∧ last = decide (k + 1 = pieces u.file u.len) ∧ p = piece u.file u.len k

/-- The first block. -/
theorem write_first {A : StreamAead} {us : List Upload} (hus : ∀ u ∈ us, u.Fits) {d : Bytes} (hd : Unforged A us (d.drop 21)) {io : WriteIo}
    (hio : io = .all ∨ io = .err) {s : StreamOut} {n : Nat} (h : StreamOut.new.write A d io = (s, .ok n)) :
    n = d.length ∧ ∃ u ∈ us, WroteAt u 1 s ∧ (1 < pieces u.file u.len → n = u.len) := by
  simp only [StreamOut.write, StreamOut.parse, StreamOut.new, if_true] at h
  split at h
  · cases h
  rename_i s1 f hp
  split at hp
  · cases hp
  rename_i z hz
  split at hp
  · cases hp
  rename_i hrange
  split at hp
  · cases hp
  rename_i h21
  simp only [Except.ok.injEq, Prod.mk.injEq] at hp
  obtain ⟨rfl, rfl⟩ := hp
  simp only at h
  split at h
  · cases h
  rename_i hlen
  unfold minStream at hrange
  have h0 : ¬ 0 = streamMax := by decide
  simp only [streamDecrypt, if_neg h0] at h
  by_cases hfull : z.toNat - 21 = (d.drop 21).length
  · rw [if_pos hfull] at h
    cases hdec : A.dec ((d.drop 2).take 19) 0 false (d.drop 21) with
    | none => rw [hdec] at h; cases h
    | some p =>
      rw [hdec] at h
      simp only at h
      obtain ⟨u, hu, g1, g2, g3, g4⟩ := hd _ _ _ _ hdec
      have hf := hus u hu
      have hl := A.dec_length _ _ _ _ _ hdec
      rcases hio with rfl | rfl
      · simp only [WriteIo.taken, Prod.mk.injEq, Except.ok.injEq] at h
        obtain ⟨rfl, rfl⟩ := h
        have hp1 : 1 < pieces u.file u.len := by
          have : ¬ 0 + 1 = pieces u.file u.len := by simpa using g3.symm
          omega
        have hpl := piece_full (k := 0) hf.len.1 hp1
        have hul := hf.len
        simp only [if_true, ← g4] at hpl
        have hz' : z.toNat = u.len := by simp only [List.length_drop] at *; omega
        refine ⟨by simp only [List.length_drop] at *; omega, u, hu, ⟨by omega, by omega, rfl, ?_, ?_, _, rfl, fun _ => hz'⟩, fun _ => ?_⟩
        · have := take_piece u.file u.len 0
          rw [g4, ← this]
          simp [cut]
        · rw [if_pos hp1, g1]
        · simp only [List.length_drop] at *; omega
      · simp only [WriteIo.taken, Prod.mk.injEq] at h
        cases h.2
  · rw [if_neg hfull] at h
    cases hdec : A.dec ((d.drop 2).take 19) 0 true (d.drop 21) with
    | none => rw [hdec] at h; cases h
    | some p =>
      rw [hdec] at h
      simp only at h
      obtain ⟨u, hu, g1, g2, g3, g4⟩ := hd _ _ _ _ hdec
      have hf := hus u hu
      have hl := A.dec_length _ _ _ _ _ hdec
      rcases hio with rfl | rfl
      · simp only [WriteIo.taken, Prod.mk.injEq, Except.ok.injEq] at h
        obtain ⟨rfl, rfl⟩ := h
        have hp1 : 0 + 1 = pieces u.file u.len := by simpa using g3.symm
        refine ⟨by simp only [List.length_drop] at *; omega, u, hu, ⟨by omega, by omega, rfl, ?_, ?_, _, rfl, fun hx => by omega⟩, fun hx => by omega⟩
        · have := take_piece u.file u.len 0
          rw [g4, ← this]
          simp [cut]
        · rw [if_neg (by omega), g1]
      · simp only [WriteIo.taken, Prod.mk.injEq] at h
        cases h.2

/-- Specification: no two uploads have the same nonce. -/
def Spec.Fresh (us : List Upload) : Prop := ∀ a ∈ us, ∀ b ∈ us, a.nonce = b.nonce → a = b

/-- A further block. -/
theorem write_next {A : StreamAead} {us : List Upload} (hus : ∀ u ∈ us, u.Fits) (hfr : Fresh us) {d : Bytes} (hd : Unforged A us d) {io : WriteIo}
    (hio : io = .all ∨ io = .err) {u : Upload} (hu : u ∈ us) {k : Nat} {s s' : StreamOut} (hs : WroteAt u k s) {n : Nat}
    (h : s.write A d io = (s', .ok n)) :
    n = d.length ∧ k < pieces u.file u.len ∧ WroteAt u (k + 1) s' ∧ (k + 1 < pieces u.file u.len → n = u.len) := by
  obtain ⟨k0, kle, hh, ho, hdc, z, hz, hzl⟩ := hs
  have hf := hus u hu
  simp only [StreamOut.write, StreamOut.parse, hh, Bool.false_eq_true, if_false, hz, hdc, List.drop_zero, Nat.sub_zero] at h
  split at h
  · cases h
  rename_i hlen
  have hk : k < pieces u.file u.len := by
    apply Classical.byContradiction
    intro hk
    rw [if_neg hk] at h
    cases h
  rw [if_pos hk] at h
  obtain rfl := hzl hk
  have hpiece : ∀ l p, A.dec u.nonce k l d = some p → l = decide (k + 1 = pieces u.file u.len) ∧ p = piece u.file u.len k := by
    intro l p hdec
    obtain ⟨u', hu', g1, g2, g3, g4⟩ := hd _ _ _ _ hdec
    have := hfr u' hu' u hu g1
    subst this
    exact ⟨g3, g4⟩
  have hmax : ¬ k = streamMax := by have := hf.size; omega
  simp only [streamDecrypt, if_neg hmax] at h
  by_cases hfull : u.len = d.length
  · rw [if_pos hfull] at h
    cases hdec : A.dec u.nonce k false d with
    | none => rw [hdec] at h; cases h
    | some p =>
      rw [hdec] at h
      simp only at h
      obtain ⟨g3, g4⟩ := hpiece _ _ hdec
      have hl := A.dec_length _ _ _ _ _ hdec
      rcases hio with rfl | rfl
      · simp only [WriteIo.taken, Prod.mk.injEq, Except.ok.injEq] at h
        obtain ⟨rfl, rfl⟩ := h
        have hp1 : k + 1 < pieces u.file u.len := by
          have : ¬ k + 1 = pieces u.file u.len := by simpa using g3.symm
          omega
        refine ⟨by omega, hk, ⟨by omega, by omega, rfl, ?_, ?_, _, rfl, fun _ => rfl⟩, fun _ => by omega⟩
        · simp only [ho, g4, take_piece]
        · rw [if_pos hp1]
      · simp only [WriteIo.taken, Prod.mk.injEq] at h
        cases h.2
  · rw [if_neg hfull] at h
    cases hdec : A.dec u.nonce k true d with
    | none => rw [hdec] at h; cases h
    | some p =>
      rw [hdec] at h
      simp only at h
      obtain ⟨g3, g4⟩ := hpiece _ _ hdec
      have hl := A.dec_length _ _ _ _ _ hdec
      rcases hio with rfl | rfl
      · simp only [WriteIo.taken, Prod.mk.injEq, Except.ok.injEq] at h
        obtain ⟨rfl, rfl⟩ := h
        have hp1 : k + 1 = pieces u.file u.len := by simpa using g3.symm
        refine ⟨by omega, hk, ⟨by omega, by omega, rfl, ?_, ?_, _, rfl, fun hx => by omega⟩, fun hx => by omega⟩
        · simp only [ho, g4, take_piece]
        · rw [if_neg (by omega)]
      · simp only [WriteIo.taken, Prod.mk.injEq] at h
        cases h.2

/-
Byte level helpers: model of /repo/src/buffer.rs and of the UTF-8 check used by
`core::str::from_utf8`.
-/
namespace Tftp

/-- Rust `[u8]` / `Vec<u8>`. -/
abbrev Bytes := List UInt8

/-- ASCII text as bytes (only used with ASCII literals). -/
def ascii (s : String) : Bytes := s.toList.map fun c => UInt8.ofNat c.toNat

/-- src/buffer.rs:26-34 `SliceMutExt::write_bytes`.  `none` when the range
`idx .. idx+len` is out of bounds; otherwise the updated buffer and the index after
the written bytes. -/
def writeBytes (buf data : Bytes) (idx : Nat) : Option (Bytes × Nat) :=
  if idx + data.length ≤ buf.length then
    some (buf.take idx ++ data ++ buf.drop (idx + data.length), idx + data.length)
  else none

/-- src/buffer.rs:51-58 `rslice_to_array::<N>` : `N` bytes ending `off` bytes before the end. -/
def rsliceToArray (n : Nat) (b : Bytes) (off : Nat) : Option Bytes :=
  if n + off ≤ b.length then some ((b.drop (b.length - n - off)).take n) else none

/-- src/buffer.rs:72-75 `slice_at_end` : everything but the last `e` bytes. -/
def sliceAtEnd (b : Bytes) (e : Nat) : Option Bytes :=
  if e ≤ b.length then some (b.take (b.length - e)) else none

/-- `u16::to_be_bytes`. -/
def be16 (n : UInt16) : Bytes := [UInt8.ofNat (n.toNat / 256), UInt8.ofNat (n.toNat % 256)]

/-- src/packet.rs:552-560 `try_from` : big endian `u16` from the first two bytes. -/
def readU16 : Bytes → Option UInt16
  | a :: b :: _ => some (UInt16.ofNat (a.toNat * 256 + b.toNat))
  | _ => none

/-- Position of the first NUL byte: the text before it and everything after it
(`bytes.iter().position(|&c| c == b'\0')` followed by `[0..n]` and `[n+1..]`,
used in src/packet.rs:283-295, 342-349, 352-356, 519-522). -/
def splitNul : Bytes → Option (Bytes × Bytes)
  | [] => none
  | c :: r => if c = 0 then some ([], r) else
      match splitNul r with
      | none => none
      | some (a, t) => some (c :: a, t)

/-- States of the UTF-8 recogniser. -/
inductive U8St | start | c1 | c2 | c3 | e0 | ed | f0 | f4 | bad
deriving DecidableEq, Repr

/-- One byte of the UTF-8 recogniser (well-formed byte sequences of RFC 3629, which is what
`core::str::from_utf8`, called at src/packet.rs:284,292,346,354,520, accepts). -/
def u8Step (s : U8St) (b : UInt8) : U8St :=
  let n := b.toNat
  match s with
  | .start =>
    if n < 0x80 then .start
    else if n < 0xC2 then .bad
    else if n < 0xE0 then .c1
    else if n = 0xE0 then .e0
    else if n = 0xED then .ed
    else if n < 0xF0 then .c2
    else if n = 0xF0 then .f0
    else if n < 0xF4 then .c3
    else if n = 0xF4 then .f4
    else .bad
  | .c1 => if 0x80 ≤ n ∧ n < 0xC0 then .start else .bad
  | .c2 => if 0x80 ≤ n ∧ n < 0xC0 then .c1 else .bad
  | .c3 => if 0x80 ≤ n ∧ n < 0xC0 then .c2 else .bad
  | .e0 => if 0xA0 ≤ n ∧ n < 0xC0 then .c1 else .bad
  | .ed => if 0x80 ≤ n ∧ n < 0xA0 then .c1 else .bad
  | .f0 => if 0x90 ≤ n ∧ n < 0xC0 then .c2 else .bad
  | .f4 => if 0x80 ≤ n ∧ n < 0x90 then .c2 else .bad
  | .bad => .bad

/-- `core::str::from_utf8(b).is_ok()`. -/
def utf8Valid (b : Bytes) : Bool := b.foldl u8Step .start == .start

/-! ### Lemmas -/

theorem UInt8.ofNat_toNat' (a : UInt8) : UInt8.ofNat a.toNat = a := by simp

theorem readU16_be16 (n : UInt16) (r : Bytes) : readU16 (be16 n ++ r) = some n := by
  have h := n.toNat_lt
  simp only [be16, readU16, List.cons_append, List.nil_append, Option.some.injEq]
  apply UInt16.toNat_inj.mp
  simp only [UInt16.toNat_ofNat', UInt8.toNat_ofNat']
  omega

theorem readU16_eq_some {b : Bytes} {n : UInt16} :
    readU16 b = some n ↔ ∃ r, b = be16 n ++ r := by
  constructor
  · intro h
    match b, h with
    | x :: y :: r, h =>
      simp only [readU16, Option.some.injEq] at h
      refine ⟨r, ?_⟩
      subst h
      have hx := x.toNat_lt
      have hy := y.toNat_lt
      simp only [be16, List.cons_append, List.nil_append, List.cons.injEq, and_true,
        UInt16.toNat_ofNat']
      constructor <;> (apply UInt8.toNat_inj.mp; simp only [UInt8.toNat_ofNat']; omega)
  · rintro ⟨r, rfl⟩
    exact readU16_be16 n r

@[simp] theorem be16_length (n : UInt16) : (be16 n).length = 2 := rfl

theorem splitNul_append {a t : Bytes} (h : (0 : UInt8) ∉ a) :
    splitNul (a ++ 0 :: t) = some (a, t) := by
  induction a with
  | nil => simp [splitNul]
  | cons c r ih =>
    simp only [List.mem_cons, not_or] at h
    simp [splitNul, ih h.2, Ne.symm h.1]

theorem splitNul_eq_some {b a t : Bytes} :
    splitNul b = some (a, t) ↔ b = a ++ 0 :: t ∧ (0 : UInt8) ∉ a := by
  constructor
  · intro h
    induction b generalizing a t with
    | nil => simp [splitNul] at h
    | cons c r ih =>
      simp only [splitNul] at h
      split at h
      · next hc => simp at h; obtain ⟨rfl, rfl⟩ := h; simp [hc]
      · next hc =>
        split at h
        · simp at h
        · next a' t' heq =>
          simp only [Option.some.injEq, Prod.mk.injEq] at h
          obtain ⟨rfl, rfl⟩ := h
          obtain ⟨h1, h2⟩ := ih heq
          subst h1
          simp [h2, Ne.symm hc]
  · rintro ⟨rfl, h⟩
    exact splitNul_append h

theorem utf8Valid_append {a b : Bytes} (ha : utf8Valid a = true) :
    utf8Valid (a ++ b) = utf8Valid b := by
  simp only [utf8Valid, beq_iff_eq] at ha
  simp [utf8Valid, List.foldl_append, ha]

theorem utf8Valid_ascii {a : Bytes} (h : ∀ x ∈ a, x.toNat < 128) : utf8Valid a = true := by
  induction a with
  | nil => rfl
  | cons c r ih =>
    simp only [List.mem_cons, forall_eq_or_imp] at h
    have : u8Step .start c = .start := by simp [u8Step, h.1]
    have ih' := ih h.2
    simp only [utf8Valid] at ih' ⊢
    simpa [this] using ih'

end Tftp

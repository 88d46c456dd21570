import Verif.Bytes
/-
`str::trim` on UTF-8 bytes (Unicode `White_Space`), used by src/key_management.rs:19,36 and src/server/validation.rs:85.
-/
namespace Tftp

/-- Remove one leading white space character (Unicode property White_Space, UTF-8 encoded). -/
def wsFront : Bytes → Option Bytes
  | 0x09 :: r | 0x0A :: r | 0x0B :: r | 0x0C :: r | 0x0D :: r | 0x20 :: r => some r
  | 0xC2 :: 0x85 :: r | 0xC2 :: 0xA0 :: r => some r
  | 0xE1 :: 0x9A :: 0x80 :: r => some r
  | 0xE2 :: 0x80 :: c :: r =>
    if (0x80 ≤ c ∧ c ≤ 0x8A) ∨ c = 0xA8 ∨ c = 0xA9 ∨ c = 0xAF then some r else none
  | 0xE2 :: 0x81 :: 0x9F :: r => some r
  | 0xE3 :: 0x80 :: 0x80 :: r => some r
  | _ => none

/-- Remove one trailing white space character of a reversed text. -/
def wsBack : Bytes → Option Bytes
  | 0x09 :: r | 0x0A :: r | 0x0B :: r | 0x0C :: r | 0x0D :: r | 0x20 :: r => some r
  | 0x85 :: 0xC2 :: r | 0xA0 :: 0xC2 :: r => some r
  | 0x80 :: 0x9A :: 0xE1 :: r => some r
  | 0x9F :: 0x81 :: 0xE2 :: r => some r
  | 0x80 :: 0x80 :: 0xE3 :: r => some r
  | c :: 0x80 :: 0xE2 :: r =>
    if (0x80 ≤ c ∧ c ≤ 0x8A) ∨ c = 0xA8 ∨ c = 0xA9 ∨ c = 0xAF then some r else none
  | _ => none

theorem wsFront_length {b r : Bytes} (h : wsFront b = some r) : r.length < b.length := by
  unfold wsFront at h
  split at h
  all_goals first | (split at h) | skip
  all_goals first | (simp only [Option.some.injEq] at h; subst h; simp <;> omega) | cases h

theorem wsBack_length {b r : Bytes} (h : wsBack b = some r) : r.length < b.length := by
  unfold wsBack at h
  split at h
  all_goals first | (split at h) | skip
  all_goals first | (simp only [Option.some.injEq] at h; subst h; simp <;> omega) | cases h

/-- `str::trim_start`. -/
def trimStart (b : Bytes) : Bytes :=
  match _h : wsFront b with
  | some r => trimStart r
  | none => b
termination_by b.length
decreasing_by exact wsFront_length (by assumption)

/-- `str::trim_end` of a reversed text. -/
def trimBack (b : Bytes) : Bytes :=
  match _h : wsBack b with
  | some r => trimBack r
  | none => b
termination_by b.length
decreasing_by exact wsBack_length (by assumption)

/-- `str::trim`. -/
def trim (b : Bytes) : Bytes := (trimBack (trimStart b).reverse).reverse

end Tftp

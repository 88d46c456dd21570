import Verif.Bytes
/-
Text of option values: decimal numbers (`u16`/`u8`/`u64` `FromStr` and `Display`) and encryption levels
(C44).
-/
namespace Tftp

/-! ### Decimal numbers -/

/-- `format!("{}", n)` for an unsigned integer (used in src/client/extensions.rs:60-93,
src/server/extensions.rs:40-98). -/
def decimal (n : Nat) : Bytes :=
  if n < 10 then [UInt8.ofNat (48 + n)] else decimal (n / 10) ++ [UInt8.ofNat (48 + n % 10)]
decreasing_by omega

/-- Digits of `core::num::FromStr` for unsigned integers: accumulate, fail on overflow beyond `max`
or on a character which is not a digit. -/
def parseDigits (max : Nat) : Nat → Bytes → Option Nat
  | acc, [] => some acc
  | acc, c :: r =>
    if 48 ≤ c.toNat ∧ c.toNat ≤ 57 then
      let v := acc * 10 + (c.toNat - 48)
      if v ≤ max then parseDigits max v r else none
    else none

/-- `str::parse::<uN>()` with largest value `max`: an optional `+`, then at least one digit
(core::num, `from_str_radix`). -/
def parseUInt (max : Nat) (s : Bytes) : Option Nat :=
  match s with
  | [] => none
  | 43 :: r => if r.isEmpty then none else parseDigits max 0 r
  | s => parseDigits max 0 s

theorem parseDigits_append (max acc : Nat) (a b : Bytes) :
    parseDigits max acc (a ++ b) = (parseDigits max acc a).bind fun v => parseDigits max v b := by
  induction a generalizing acc with
  | nil => rfl
  | cons c r ih =>
    simp only [List.cons_append, parseDigits]
    split
    · split
      · exact ih _
      · rfl
    · rfl

theorem decimal_digits (n : Nat) : ∀ c ∈ decimal n, 48 ≤ c.toNat ∧ c.toNat ≤ 57 := by
  induction n using Nat.strongRecOn with
  | ind n ih =>
    unfold decimal
    split
    · intro c hc
      simp only [List.mem_singleton] at hc
      subst hc
      simp; omega
    · intro c hc
      simp only [List.mem_append, List.mem_singleton] at hc
      rcases hc with hc | hc
      · exact ih (n / 10) (by omega) c hc
      · subst hc; simp; omega

theorem decimal_ne_nil (n : Nat) : decimal n ≠ [] := by
  unfold decimal; split <;> simp

theorem parseDigits_decimal (max n : Nat) (h : n ≤ max) : parseDigits max 0 (decimal n) = some n := by
  induction n using Nat.strongRecOn with
  | ind n ih =>
    unfold decimal
    split
    · rename_i hn
      simp [parseDigits]
      omega
    · rename_i hn
      rw [parseDigits_append, ih (n / 10) (by omega) (by omega)]
      simp [parseDigits]
      omega

/-- A printed number is parsed back. -/
theorem parse_decimal (max n : Nat) (h : n ≤ max) : parseUInt max (decimal n) = some n := by
  have h1 := decimal_ne_nil n
  have h2 := decimal_digits n
  have h3 := parseDigits_decimal max n h
  generalize decimal n = s at *
  unfold parseUInt
  split
  · exact absurd rfl h1
  · have := h2 43 (by simp)
    simp at this
  · exact h3

/-- Parsed numbers are in range. -/
theorem parseUInt_le (max : Nat) (s : Bytes) (n : Nat) (h : parseUInt max s = some n) : n ≤ max := by
  have key : ∀ (s : Bytes) acc, acc ≤ max → parseDigits max acc s = some n → n ≤ max := by
    intro s
    induction s with
    | nil => intro acc ha h; simp only [parseDigits, Option.some.injEq] at h; omega
    | cons c r ih =>
      intro acc ha h
      simp only [parseDigits] at h
      split at h
      · split at h
        · rename_i hv; exact ih _ hv h
        · cases h
      · cases h
  unfold parseUInt at h
  split at h
  · cases h
  · split at h
    · cases h
    · exact key _ _ (Nat.zero_le _) h
  · exact key _ _ (Nat.zero_le _) h

/-! ### Encryption levels -/

/-- src/encryption.rs:157-165 `EncryptionLevel`. -/
inductive Level | data | protocol | full | optionalData | optionalProtocol | none
deriving DecidableEq, Repr

/-- src/encryption.rs:167-181 `FromStr for EncryptionLevel`. -/
def Level.parse (s : Bytes) : Option Level :=
  if s = ascii "data" then some .data
  else if s = ascii "protocol" then some .protocol
  else if s = ascii "full" then some .full
  else if s = ascii "optional-data" then some .optionalData
  else if s = ascii "optional-protocol" then some .optionalProtocol
  else if s = ascii "none" then some .none
  else Option.none

/-- src/encryption.rs:183-194 `Display for EncryptionLevel`. -/
def Level.text : Level → Bytes
  | .data => ascii "data"
  | .protocol => ascii "protocol"
  | .full => ascii "full"
  | .optionalData => ascii "optional-data"
  | .optionalProtocol => ascii "optional-protocol"
  | .none => ascii "none"

/-- **C44**: a text is accepted as level `l` exactly if it is the printed form of `l`; in particular
printing and parsing is the identity, and no other text is accepted. -/
theorem c44_level_text (s : Bytes) (l : Level) : Level.parse s = some l ↔ s = l.text := by
  constructor
  · intro h
    unfold Level.parse at h
    repeat' split at h
    all_goals first | (simp only [Option.some.injEq] at h; subst h; assumption) | cases h
  · intro h
    subst h
    cases l <;> decide

example : Level.parse (ascii "optional-data") = some .optionalData := by decide
example : Level.parse (ascii "Data") = Option.none := by decide

end Tftp

import Verif.Bytes
/-
The text form of keys: base64 (the `base64` crate's `STANDARD` engine used through `ENGINE`, src/encryption.rs:57):
standard alphabet, padding required, trailing bits must be zero.
-/
namespace Tftp

/-- The standard alphabet: character of a 6 bit value. -/
def b64sym (n : Nat) : UInt8 :=
  if n < 26 then UInt8.ofNat (65 + n)
  else if n < 52 then UInt8.ofNat (97 + (n - 26))
  else if n < 62 then UInt8.ofNat (48 + (n - 52))
  else if n = 62 then 43 else 47

/-- The standard alphabet: 6 bit value of a character. -/
def b64val (c : UInt8) : Option Nat :=
  if 65 ≤ c ∧ c ≤ 90 then some (c.toNat - 65)
  else if 97 ≤ c ∧ c ≤ 122 then some (c.toNat - 97 + 26)
  else if 48 ≤ c ∧ c ≤ 57 then some (c.toNat - 48 + 52)
  else if c = 43 then some 62
  else if c = 47 then some 63
  else none

/-- `ENGINE.encode_slice`: three bytes become four characters, the last group is padded with `=`. -/
def b64encode : Bytes → Bytes
  | [] => []
  | [a] => [b64sym (a.toNat / 4), b64sym (a.toNat % 4 * 16), 61, 61]
  | [a, b] => [b64sym (a.toNat / 4), b64sym (a.toNat % 4 * 16 + b.toNat / 16), b64sym (b.toNat % 16 * 4), 61]
  | a :: b :: c :: r =>
    b64sym (a.toNat / 4) :: b64sym (a.toNat % 4 * 16 + b.toNat / 16) ::
      b64sym (b.toNat % 16 * 4 + c.toNat / 64) :: b64sym (c.toNat % 64) :: b64encode r

/-- A group without padding. -/
def b64quad (a b c d : UInt8) : Option Bytes := do
  let a ← b64val a
  let b ← b64val b
  let c ← b64val c
  let d ← b64val d
  pure [UInt8.ofNat (a * 4 + b / 16), UInt8.ofNat (b % 16 * 16 + c / 4), UInt8.ofNat (c % 4 * 64 + d)]

/-- The last group: possibly padded, unused bits zero. -/
def b64last (a b c d : UInt8) : Option Bytes :=
  if d = 61 then
    if c = 61 then do
      let a ← b64val a
      let b ← b64val b
      if b % 16 = 0 then pure [UInt8.ofNat (a * 4 + b / 16)] else none
    else do
      let a ← b64val a
      let b ← b64val b
      let c ← b64val c
      if c % 4 = 0 then pure [UInt8.ofNat (a * 4 + b / 16), UInt8.ofNat (b % 16 * 16 + c / 4)] else none
  else b64quad a b c d

/-- `ENGINE.decode_slice` without the output size check (base64 0.21.7: all groups but the last one have no padding,
the length is a multiple of four). -/
def b64decode : Bytes → Option Bytes
  | [] => some []
  | [a, b, c, d] => b64last a b c d
  | a :: b :: c :: d :: r => do
    let x ← b64quad a b c d
    let y ← b64decode r
    pure (x ++ y)
  | _ => none

theorem b64val_sym : ∀ n < 64, b64val (b64sym n) = some n := by decide

theorem b64sym_ne_pad : ∀ n < 64, b64sym n ≠ 61 := by decide

set_option maxRecDepth 8000 in
theorem b64sym_val_aux : ∀ k < 256, ∀ n, b64val (UInt8.ofNat k) = some n →
    n < 64 ∧ b64sym n = UInt8.ofNat k := by
  have : ∀ k < 256, (b64val (UInt8.ofNat k)).all
      (fun n => decide (n < 64) && decide (b64sym n = UInt8.ofNat k)) = true := by decide
  intro k hk n hn
  have := this k hk
  rw [hn] at this
  simpa using this

theorem b64sym_val (c : UInt8) (n : Nat) (h : b64val c = some n) : n < 64 ∧ b64sym n = c := by
  have := b64sym_val_aux c.toNat c.toNat_lt n (by simpa using h)
  simpa using this

theorem u8_ext_nat (a : UInt8) (n : Nat) (h : n = a.toNat) : UInt8.ofNat n = a := by
  subst h; simp

/-- Decoding the encoding. -/
theorem b64_decode_encode (x : Bytes) : b64decode (b64encode x) = some x := by
  induction x using b64encode.induct with
  | case1 => rfl
  | case2 a =>
    have ha := a.toNat_lt
    have h1 := b64val_sym (a.toNat / 4) (by omega)
    have h2 := b64val_sym (a.toNat % 4 * 16) (by omega)
    simp only [b64encode, b64decode, b64last, if_true, h1, h2, Option.bind_eq_bind, Option.bind_some]
    rw [if_pos (by omega)]
    simp only [Option.pure_def, Option.some.injEq, List.cons.injEq, and_true]
    exact u8_ext_nat _ _ (by omega)
  | case3 a b =>
    have ha := a.toNat_lt
    have hb := b.toNat_lt
    have h1 := b64val_sym (a.toNat / 4) (by omega)
    have h2 := b64val_sym (a.toNat % 4 * 16 + b.toNat / 16) (by omega)
    have h3 := b64val_sym (b.toNat % 16 * 4) (by omega)
    have h4 := b64sym_ne_pad (b.toNat % 16 * 4) (by omega)
    simp only [b64encode, b64decode, b64last, if_true, h1, h2, h3, h4, if_false, Option.bind_eq_bind,
      Option.bind_some]
    rw [if_pos (by omega)]
    simp only [Option.pure_def, Option.some.injEq, List.cons.injEq, and_true]
    exact ⟨u8_ext_nat _ _ (by omega), u8_ext_nat _ _ (by omega)⟩
  | case4 a b c r ih =>
    have ha := a.toNat_lt
    have hb := b.toNat_lt
    have hc := c.toNat_lt
    have h1 := b64val_sym (a.toNat / 4) (by omega)
    have h2 := b64val_sym (a.toNat % 4 * 16 + b.toNat / 16) (by omega)
    have h3 := b64val_sym (b.toNat % 16 * 4 + c.toNat / 64) (by omega)
    have h4 := b64val_sym (c.toNat % 64) (by omega)
    have h5 := b64sym_ne_pad (c.toNat % 64) (by omega)
    have hq : b64quad (b64sym (a.toNat / 4)) (b64sym (a.toNat % 4 * 16 + b.toNat / 16))
        (b64sym (b.toNat % 16 * 4 + c.toNat / 64)) (b64sym (c.toNat % 64)) = some [a, b, c] := by
      simp only [b64quad, h1, h2, h3, h4, Option.bind_eq_bind, Option.bind_some, Option.pure_def,
        Option.some.injEq, List.cons.injEq, and_true]
      exact ⟨u8_ext_nat _ _ (by omega), u8_ext_nat _ _ (by omega), u8_ext_nat _ _ (by omega)⟩
    simp only [b64encode]
    generalize hE : b64encode r = e at *
    cases e with
    | nil =>
      simp only [b64decode, Option.some.injEq] at ih
      subst ih
      simp only [b64decode, b64last, h5, if_false]
      exact hq
    | cons e0 e =>
      rw [b64decode]
      · rw [hq, ih]; rfl
      · simp

theorem b64quad_inv {a b c d : UInt8} {x : Bytes} (h : b64quad a b c d = some x) :
    ∃ p q r, x = [p, q, r] ∧ a = b64sym (p.toNat / 4) ∧ b = b64sym (p.toNat % 4 * 16 + q.toNat / 16) ∧
      c = b64sym (q.toNat % 16 * 4 + r.toNat / 64) ∧ d = b64sym (r.toNat % 64) := by
  unfold b64quad at h
  simp only [Option.bind_eq_bind, Option.bind_eq_some_iff, Option.pure_def, Option.some.injEq] at h
  obtain ⟨na, ha, nb, hb, nc, hc, nd, hd, rfl⟩ := h
  obtain ⟨la, rfl⟩ := b64sym_val _ _ ha
  obtain ⟨lb, rfl⟩ := b64sym_val _ _ hb
  obtain ⟨lc, rfl⟩ := b64sym_val _ _ hc
  obtain ⟨ld, rfl⟩ := b64sym_val _ _ hd
  refine ⟨_, _, _, rfl, ?_, ?_, ?_, ?_⟩ <;> congr 1 <;> simp <;> omega

/-- Everything which can be decoded is the encoding of the result. -/
theorem b64_encode_decode (t : Bytes) (x : Bytes) (h : b64decode t = some x) : b64encode x = t := by
  induction t using b64decode.induct generalizing x with
  | case1 => simp only [b64decode, Option.some.injEq] at h; subst h; rfl
  | case2 a b c d =>
    simp only [b64decode] at h
    unfold b64last at h
    split at h
    · rename_i hd
      subst hd
      split at h
      · rename_i hc
        subst hc
        simp only [Option.bind_eq_bind, Option.bind_eq_some_iff, Option.pure_def] at h
        obtain ⟨na, ha, nb, hb, h⟩ := h
        split at h
        · simp only [Option.some.injEq] at h
          subst h
          obtain ⟨la, rfl⟩ := b64sym_val _ _ ha
          obtain ⟨lb, rfl⟩ := b64sym_val _ _ hb
          simp only [b64encode, List.cons.injEq, and_true]
          constructor <;> congr 1 <;> simp <;> omega
        · cases h
      · simp only [Option.bind_eq_bind, Option.bind_eq_some_iff, Option.pure_def] at h
        obtain ⟨na, ha, nb, hb, nc, hc, h⟩ := h
        split at h
        · simp only [Option.some.injEq] at h
          subst h
          obtain ⟨la, rfl⟩ := b64sym_val _ _ ha
          obtain ⟨lb, rfl⟩ := b64sym_val _ _ hb
          obtain ⟨lc, rfl⟩ := b64sym_val _ _ hc
          simp only [b64encode, List.cons.injEq, and_true]
          refine ⟨?_, ?_, ?_⟩ <;> congr 1 <;> simp <;> omega
        · cases h
    · obtain ⟨p, q, r, rfl, rfl, rfl, rfl, rfl⟩ := b64quad_inv h
      rfl
  | case3 a b c d r hne ih =>
    rw [b64decode] at h
    · simp only [Option.bind_eq_bind, Option.bind_eq_some_iff, Option.pure_def, Option.some.injEq] at h
      obtain ⟨y, hy, z, hz, rfl⟩ := h
      obtain ⟨p, q, r', rfl, rfl, rfl, rfl, rfl⟩ := b64quad_inv hy
      simp [b64encode, ih _ hz]
    · exact hne
  | case4 t h1 h2 h3 =>
    unfold b64decode at h
    split at h
    · exact absurd rfl h1
    · exact absurd rfl (h2 _ _ _ _)
    · exact absurd rfl (h3 _ _ _ _ _)
    · cases h

theorem b64encode_length (x : Bytes) : (b64encode x).length = (x.length + 2) / 3 * 4 := by
  induction x using b64encode.induct with
  | case1 => rfl
  | case2 => simp [b64encode]
  | case3 => simp [b64encode]
  | case4 a b c r ih => simp only [b64encode, List.length_cons, ih]; omega

end Tftp

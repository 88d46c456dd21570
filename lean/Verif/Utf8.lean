import Verif.Bytes
/-
C03: which byte strings count as text. The recogniser of Bytes.lean accepts exactly the UTF-8 encodings of sequences of Unicode scalar values.
-/
namespace Tftp

/-! ### Specification -/

/-- A Unicode scalar value: a code point which is no surrogate. -/
def Spec.Scalar (c : Nat) : Prop := c < 0xD800 ∨ 0xE000 ≤ c ∧ c < 0x110000

/-- RFC 3629, section 3. -/
def Spec.utf8 (c : Nat) : Bytes :=
  (if c < 0x80 then [c]
  else if c < 0x800 then [0xC0 + c / 64, 0x80 + c % 64]
  else if c < 0x10000 then [0xE0 + c / 4096, 0x80 + c / 64 % 64, 0x80 + c % 64]
  else [0xF0 + c / 262144, 0x80 + c / 4096 % 64, 0x80 + c / 64 % 64, 0x80 + c % 64]).map UInt8.ofNat

open Spec

/-! ### Encodings are accepted -/

theorem run_bad (b : Bytes) : b.foldl u8Step .bad = .bad := by
  induction b with
  | nil => rfl
  | cons x b ih => exact ih

theorem toNat_of {n : Nat} (h : n < 256) : (UInt8.ofNat n).toNat = n := by
  simp only [UInt8.toNat_ofNat']
  omega

theorem run_scalar {c : Nat} (h : Scalar c) : (utf8 c).foldl u8Step .start = .start := by
  unfold Scalar at h
  unfold utf8
  split
  · simp only [List.map_cons, List.map_nil, List.foldl_cons, List.foldl_nil, u8Step]
    rw [toNat_of (by omega)]
    simp only [*, if_true]
  · split
    · simp only [List.map_cons, List.map_nil, List.foldl_cons, List.foldl_nil]
      have e1 : u8Step .start (UInt8.ofNat (0xC0 + c / 64)) = .c1 := by
        simp only [u8Step]
        rw [toNat_of (by omega), if_neg (by omega), if_neg (by omega), if_pos (by omega)]
      rw [e1]
      simp only [u8Step]
      rw [toNat_of (by omega), if_pos (by omega)]
    · split
      · simp only [List.map_cons, List.map_nil, List.foldl_cons, List.foldl_nil]
        have e3 : u8Step .c1 (UInt8.ofNat (0x80 + c % 64)) = .start := by
          simp only [u8Step]
          rw [toNat_of (by omega), if_pos (by omega)]
        by_cases h0 : c / 4096 = 0
        · have e1 : u8Step .start (UInt8.ofNat (0xE0 + c / 4096)) = .e0 := by
            simp only [u8Step]
            rw [toNat_of (by omega), if_neg (by omega), if_neg (by omega), if_neg (by omega), if_pos (by omega)]
          have e2 : u8Step .e0 (UInt8.ofNat (0x80 + c / 64 % 64)) = .c1 := by
            simp only [u8Step]
            rw [toNat_of (by omega), if_pos (by omega)]
          rw [e1, e2, e3]
        · by_cases hd : c / 4096 = 13
          · have e1 : u8Step .start (UInt8.ofNat (0xE0 + c / 4096)) = .ed := by
              simp only [u8Step]
              rw [toNat_of (by omega), if_neg (by omega), if_neg (by omega), if_neg (by omega), if_neg (by omega), if_pos (by omega)]
            have e2 : u8Step .ed (UInt8.ofNat (0x80 + c / 64 % 64)) = .c1 := by
              simp only [u8Step]
              rw [toNat_of (by omega), if_pos (by omega)]
            rw [e1, e2, e3]
          · have e1 : u8Step .start (UInt8.ofNat (0xE0 + c / 4096)) = .c2 := by
              simp only [u8Step]
              rw [toNat_of (by omega), if_neg (by omega), if_neg (by omega), if_neg (by omega), if_neg (by omega), if_neg (by omega), if_pos (by omega)]
            have e2 : u8Step .c2 (UInt8.ofNat (0x80 + c / 64 % 64)) = .c1 := by
              simp only [u8Step]
              rw [toNat_of (by omega), if_pos (by omega)]
            rw [e1, e2, e3]
      · simp only [List.map_cons, List.map_nil, List.foldl_cons, List.foldl_nil]
        have e3 : u8Step .c2 (UInt8.ofNat (0x80 + c / 64 % 64)) = .c1 := by
          simp only [u8Step]
          rw [toNat_of (by omega), if_pos (by omega)]
        have e4 : u8Step .c1 (UInt8.ofNat (0x80 + c % 64)) = .start := by
          simp only [u8Step]
          rw [toNat_of (by omega), if_pos (by omega)]
        by_cases h0 : c / 262144 = 0
        · have e1 : u8Step .start (UInt8.ofNat (0xF0 + c / 262144)) = .f0 := by
            simp only [u8Step]
            rw [toNat_of (by omega), if_neg (by omega), if_neg (by omega), if_neg (by omega), if_neg (by omega), if_neg (by omega), if_neg (by omega),
              if_pos (by omega)]
          have e2 : u8Step .f0 (UInt8.ofNat (0x80 + c / 4096 % 64)) = .c2 := by
            simp only [u8Step]
            rw [toNat_of (by omega), if_pos (by omega)]
          rw [e1, e2, e3, e4]
        · by_cases h4 : c / 262144 = 4
          · have e1 : u8Step .start (UInt8.ofNat (0xF0 + c / 262144)) = .f4 := by
              simp only [u8Step]
              rw [toNat_of (by omega), if_neg (by omega), if_neg (by omega), if_neg (by omega), if_neg (by omega), if_neg (by omega), if_neg (by omega),
                if_neg (by omega), if_neg (by omega), if_pos (by omega)]
            have e2 : u8Step .f4 (UInt8.ofNat (0x80 + c / 4096 % 64)) = .c2 := by
              simp only [u8Step]
              rw [toNat_of (by omega), if_pos (by omega)]
            rw [e1, e2, e3, e4]
          · have e1 : u8Step .start (UInt8.ofNat (0xF0 + c / 262144)) = .c3 := by
              simp only [u8Step]
              rw [toNat_of (by omega), if_neg (by omega), if_neg (by omega), if_neg (by omega), if_neg (by omega), if_neg (by omega), if_neg (by omega),
                if_neg (by omega), if_pos (by omega)]
            have e2 : u8Step .c3 (UInt8.ofNat (0x80 + c / 4096 % 64)) = .c2 := by
              simp only [u8Step]
              rw [toNat_of (by omega), if_pos (by omega)]
            rw [e1, e2, e3, e4]

/-! ### Only encodings are accepted -/

/-- In the middle of a character the next byte must continue it. -/
theorem run_next {s : U8St} {b : Bytes} (hs : s ≠ .start) (h : b.foldl u8Step s = .start) :
    ∃ y r, b = y :: r ∧ u8Step s y ≠ .bad ∧ r.foldl u8Step (u8Step s y) = .start := by
  cases b with
  | nil => exact absurd h hs
  | cons y r =>
    refine ⟨y, r, rfl, fun hb => ?_, h⟩
    rw [List.foldl_cons, hb, run_bad] at h
    cases h

theorem run_cont {lo hi : Nat} {y : UInt8} {t : U8St} (h : (if lo ≤ y.toNat ∧ y.toNat < hi then t else U8St.bad) ≠ .bad) : lo ≤ y.toNat ∧ y.toNat < hi :=
  Classical.byContradiction fun hn => h (if_neg hn)

theorem run_start (n : Nat) : ∀ b : Bytes, b.length ≤ n → b.foldl u8Step .start = .start →
    ∃ cs : List Nat, (∀ c ∈ cs, Scalar c) ∧ b = cs.flatMap utf8 := by
  induction n with
  | zero =>
    intro b hb _
    cases b with
    | nil => exact ⟨[], (by simp), rfl⟩
    | cons x b => simp at hb
  | succ n ih =>
    intro b hb h
    cases b with
    | nil => exact ⟨[], (by simp), rfl⟩
    | cons x b =>
      have hx : x.toNat < 256 := x.toNat_lt
      -- one character, then the rest
      have done : ∀ (c : Nat) (r : Bytes), Scalar c → x :: b = utf8 c ++ r → r.foldl u8Step .start = .start → r.length ≤ n →
          ∃ cs : List Nat, (∀ c ∈ cs, Scalar c) ∧ x :: b = cs.flatMap utf8 := by
        intro c r hc he hr hl
        obtain ⟨cs, h1, h2⟩ := ih r hl hr
        refine ⟨c :: cs, ?_, ?_⟩
        · intro d hd
          rcases List.mem_cons.1 hd with rfl | hd
          · exact hc
          · exact h1 d hd
        · rw [List.flatMap_cons, ← h2, he]
      have byte : ∀ {y : UInt8} {m : Nat}, y.toNat = m → y = UInt8.ofNat m := by
        intro y m hm
        rw [← hm, UInt8.ofNat_toNat']
      simp only [List.length_cons, Nat.add_le_add_iff_right] at hb
      simp only [List.foldl_cons] at h
      -- two bytes
      have two : 0xC2 ≤ x.toNat → x.toNat < 0xE0 → b.foldl u8Step .c1 = .start → ∃ cs : List Nat, (∀ c ∈ cs, Scalar c) ∧ x :: b = cs.flatMap utf8 := by
        intro h1 h2 h3
        obtain ⟨y, r, rfl, hy, hr⟩ := run_next (by decide) h3
        have hy' := run_cont (t := .start) hy
        simp only [u8Step, if_pos hy'] at hr
        refine done ((x.toNat - 0xC0) * 64 + (y.toNat - 0x80)) r (by unfold Scalar; omega) ?_ hr (by simp at hb; omega)
        unfold utf8
        rw [if_neg (by omega), if_pos (by omega)]
        simp only [List.map_cons, List.map_nil, List.cons_append, List.nil_append, List.cons.injEq, and_true]
        exact ⟨byte (by omega), byte (by omega)⟩
      -- three bytes
      have three : ∀ lo hi, 0xE0 ≤ x.toNat → x.toNat < 0xF0 → 0x80 ≤ lo → hi ≤ 0xC0 → (x.toNat = 0xE0 → 0xA0 ≤ lo) → (x.toNat = 0xED → hi ≤ 0xA0) →
          (∃ y r, b = y :: r ∧ (lo ≤ y.toNat ∧ y.toNat < hi) ∧ r.foldl u8Step .c1 = .start) → ∃ cs : List Nat, (∀ c ∈ cs, Scalar c) ∧ x :: b = cs.flatMap utf8 := by
        rintro lo hi h1 h2 h3 h4 h5 h6 ⟨y, r, rfl, hy, hr⟩
        obtain ⟨z, r, rfl, hz, hr⟩ := run_next (by decide) hr
        have hz' := run_cont (t := .start) hz
        simp only [u8Step, if_pos hz'] at hr
        refine done ((x.toNat - 0xE0) * 4096 + (y.toNat - 0x80) * 64 + (z.toNat - 0x80)) r (by unfold Scalar; omega) ?_ hr (by simp at hb; omega)
        unfold utf8
        rw [if_neg (by omega), if_neg (by omega), if_pos (by omega)]
        simp only [List.map_cons, List.map_nil, List.cons_append, List.nil_append, List.cons.injEq, and_true]
        exact ⟨byte (by omega), byte (by omega), byte (by omega)⟩
      -- four bytes
      have four : ∀ lo hi, 0xF0 ≤ x.toNat → x.toNat ≤ 0xF4 → 0x80 ≤ lo → hi ≤ 0xC0 → (x.toNat = 0xF0 → 0x90 ≤ lo) → (x.toNat = 0xF4 → hi ≤ 0x90) →
          (∃ y r, b = y :: r ∧ (lo ≤ y.toNat ∧ y.toNat < hi) ∧ r.foldl u8Step .c2 = .start) → ∃ cs : List Nat, (∀ c ∈ cs, Scalar c) ∧ x :: b = cs.flatMap utf8 := by
        rintro lo hi h1 h2 h3 h4 h5 h6 ⟨y, r, rfl, hy, hr⟩
        obtain ⟨z, r, rfl, hz, hr⟩ := run_next (by decide) hr
        have hz' := run_cont (t := .c1) hz
        simp only [u8Step, if_pos hz'] at hr
        obtain ⟨w, r, rfl, hw, hr⟩ := run_next (by decide) hr
        have hw' := run_cont (t := .start) hw
        simp only [u8Step, if_pos hw'] at hr
        refine done ((x.toNat - 0xF0) * 262144 + (y.toNat - 0x80) * 4096 + (z.toNat - 0x80) * 64 + (w.toNat - 0x80)) r (by unfold Scalar; omega) ?_ hr
          (by simp at hb; omega)
        unfold utf8
        rw [if_neg (by omega), if_neg (by omega), if_neg (by omega)]
        simp only [List.map_cons, List.map_nil, List.cons_append, List.nil_append, List.cons.injEq, and_true]
        exact ⟨byte (by omega), byte (by omega), byte (by omega), byte (by omega)⟩
      have cont : ∀ {s : U8St} {lo hi : Nat} {t : U8St}, s ≠ .start → (∀ y : UInt8, u8Step s y = if lo ≤ y.toNat ∧ y.toNat < hi then t else .bad) →
          b.foldl u8Step s = .start → ∃ y r, b = y :: r ∧ (lo ≤ y.toNat ∧ y.toNat < hi) ∧ r.foldl u8Step t = .start := by
        intro s lo hi t h1 h2 h3
        obtain ⟨y, r, rfl, hy, hr⟩ := run_next h1 h3
        rw [h2] at hy hr
        have hy' := run_cont hy
        rw [if_pos hy'] at hr
        exact ⟨y, r, rfl, hy', hr⟩
      simp only [u8Step] at h
      by_cases h1 : x.toNat < 0x80
      · rw [if_pos h1] at h
        refine done x.toNat b (by unfold Scalar; omega) ?_ h hb
        unfold utf8
        rw [if_pos h1]
        simp
      · rw [if_neg h1] at h
        by_cases h2 : x.toNat < 0xC2
        · rw [if_pos h2, run_bad] at h; cases h
        · rw [if_neg h2] at h
          by_cases h3 : x.toNat < 0xE0
          · rw [if_pos h3] at h; exact two (by omega) h3 h
          · rw [if_neg h3] at h
            by_cases h4 : x.toNat = 0xE0
            · rw [if_pos h4] at h
              exact three 0xA0 0xC0 (by omega) (by omega) (by omega) (by omega) (by omega) (by omega) (cont (t := .c1) (by decide) (fun _ => rfl) h)
            · rw [if_neg h4] at h
              by_cases h5 : x.toNat = 0xED
              · rw [if_pos h5] at h
                exact three 0x80 0xA0 (by omega) (by omega) (by omega) (by omega) (by omega) (by omega) (cont (t := .c1) (by decide) (fun _ => rfl) h)
              · rw [if_neg h5] at h
                by_cases h6 : x.toNat < 0xF0
                · rw [if_pos h6] at h
                  exact three 0x80 0xC0 (by omega) (by omega) (by omega) (by omega) (by omega) (by omega) (cont (t := .c1) (by decide) (fun _ => rfl) h)
                · rw [if_neg h6] at h
                  by_cases h7 : x.toNat = 0xF0
                  · rw [if_pos h7] at h
                    exact four 0x90 0xC0 (by omega) (by omega) (by omega) (by omega) (by omega) (by omega) (cont (t := .c2) (by decide) (fun _ => rfl) h)
                  · rw [if_neg h7] at h
                    by_cases h8 : x.toNat < 0xF4
                    · rw [if_pos h8] at h
                      exact four 0x80 0xC0 (by omega) (by omega) (by omega) (by omega) (by omega) (by omega) (cont (t := .c2) (by decide) (fun _ => rfl) h)
                    · rw [if_neg h8] at h
                      by_cases h9 : x.toNat = 0xF4
                      · rw [if_pos h9] at h
                        exact four 0x80 0x90 (by omega) (by omega) (by omega) (by omega) (by omega) (by omega) (cont (t := .c2) (by decide) (fun _ => rfl) h)
                      · rw [if_neg h9, run_bad] at h; cases h

/-- **C03**: the names, modes and messages which count as text are exactly the UTF-8 encodings of sequences of Unicode scalar values. -/
theorem c03_utf8 (b : Bytes) : utf8Valid b = true ↔ ∃ cs : List Nat, (∀ c ∈ cs, Scalar c) ∧ b = cs.flatMap utf8 := by
  unfold utf8Valid
  rw [beq_iff_eq]
  constructor
  · exact run_start b.length b (Nat.le_refl _)
  · rintro ⟨cs, h1, rfl⟩
    induction cs with
    | nil => rfl
    | cons c cs ih =>
      rw [List.flatMap_cons, List.foldl_append, run_scalar (h1 c (by simp))]
      exact ih fun d hd => h1 d (List.mem_cons_of_mem _ hd)

/-- `aé€😀`, and an encoded surrogate, which is none. -/
example : utf8Valid [0x61, 0xC3, 0xA9, 0xE2, 0x82, 0xAC, 0xF0, 0x9F, 0x98, 0x80] = true ∧
    [0x61, 0xC3, 0xA9, 0xE2, 0x82, 0xAC, 0xF0, 0x9F, 0x98, 0x80] = [0x61, 0xE9, 0x20AC, 0x1F600].flatMap utf8 ∧
    utf8Valid [0xED, 0xA0, 0x80] = false := by decide

end Tftp

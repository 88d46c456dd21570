import Verif.WindowSpec
/- Facts about file blocks and the sliding window specification. -/
namespace Tftp.Spec
open Tftp

theorem bytesIn_mono (file : Bytes) (bs : Nat) {i j : Nat} (h : i ≤ j) :
    bytesIn file bs i ≤ bytesIn file bs j := by
  have := Nat.mul_le_mul_right bs h
  simp only [bytesIn]; omega

theorem block_length (file : Bytes) (bs i : Nat) (h : 1 ≤ i) :
    (block file bs i).length = bytesIn file bs i - bytesIn file bs (i - 1) := by
  obtain ⟨i, rfl⟩ : ∃ k, i = k + 1 := ⟨i - 1, by omega⟩
  simp only [block, bytesIn, List.length_take, List.length_drop, Nat.add_sub_cancel, Nat.succ_mul]
  omega

theorem nblocks_pos (file : Bytes) (bs : Nat) : 1 ≤ nblocks file bs := by simp [nblocks]

theorem lt_nblocks_iff (file : Bytes) (bs i : Nat) (hbs : 0 < bs) :
    i < nblocks file bs ↔ i * bs ≤ file.length := by
  simp only [nblocks, Nat.lt_succ_iff]
  exact Nat.le_div_iff_mul_le hbs

theorem bytesIn_lt_nblocks (file : Bytes) (bs i : Nat) (hbs : 0 < bs) (h : i < nblocks file bs) :
    bytesIn file bs i = i * bs := by
  have := (lt_nblocks_iff file bs i hbs).mp h
  simp only [bytesIn]; omega

theorem bytesIn_nblocks (file : Bytes) (bs i : Nat) (hbs : 0 < bs) (h : nblocks file bs ≤ i) :
    bytesIn file bs i = file.length := by
  have h2 : ¬ (nblocks file bs * bs ≤ file.length) := by
    rw [← lt_nblocks_iff _ _ _ hbs]; omega
  have := Nat.mul_le_mul_right bs h
  simp only [bytesIn]; omega

/-- Exactly the last block is short. -/
theorem block_short_iff (file : Bytes) (bs i : Nat) (hbs : 0 < bs) (h : 1 ≤ i)
    (h2 : i ≤ nblocks file bs) : (block file bs i).length < bs ↔ i = nblocks file bs := by
  rw [block_length _ _ _ h, bytesIn_lt_nblocks _ _ (i - 1) hbs (by omega)]
  obtain ⟨i, rfl⟩ : ∃ k, i = k + 1 := ⟨i - 1, by omega⟩
  simp only [Nat.add_sub_cancel]
  by_cases hi : i + 1 = nblocks file bs
  · rw [bytesIn_nblocks _ _ _ hbs (by omega)]
    have h3 : ¬ ((i + 1) * bs ≤ file.length) := by
      rw [← lt_nblocks_iff _ _ _ hbs]; omega
    rw [Nat.succ_mul] at h3
    simp only [hi, iff_true]
    omega
  · rw [bytesIn_lt_nblocks _ _ (i + 1) hbs (by omega), Nat.succ_mul]
    simp only [hi, iff_false]
    omega

theorem block_length_le (file : Bytes) (bs i : Nat) : (block file bs i).length ≤ bs := by
  simp only [block, List.length_take]; omega

/-- The blocks of a file concatenate to its prefixes. -/
theorem take_bytesIn_succ (file : Bytes) (bs i : Nat) :
    file.take (bytesIn file bs i) ++ block file bs (i + 1) = file.take (bytesIn file bs (i + 1)) := by
  simp only [block, bytesIn, Nat.add_sub_cancel, Nat.succ_mul]
  have h : ∀ n, file.take (min file.length n) = file.take n := by
    intro n
    rw [Nat.min_comm]
    simp [List.take_eq_take_iff]
  rw [h, h]
  rw [List.take_add]

/-- Window invariant. -/
structure Window.Inv (file : Bytes) (bs size : Nat) (w : Window) : Prop where
  base_cur : w.base ≤ w.cur
  cur_top : w.cur ≤ w.top
  top_le : w.top ≤ nblocks file bs
  room : w.top - w.base ≤ size

theorem Window.inv_init (file bs size) : Window.Inv file bs size Window.init := by
  constructor <;> simp [Window.init]

theorem Window.inv_next {file bs size w retry} (h : Window.Inv file bs size w) :
    Window.Inv file bs size (w.next file bs size retry).1 := by
  obtain ⟨h1, h2, h3, h4⟩ := h
  unfold Window.next
  split
  · constructor <;> simp <;> omega
  · split
    · constructor <;> simp <;> omega
    · split
      · constructor <;> simp <;> omega
      · constructor <;> assumption

theorem Window.inv_ack {file bs size w t} (h : Window.Inv file bs size w) :
    Window.Inv file bs size (w.ack file bs t).1 := by
  obtain ⟨h1, h2, h3, h4⟩ := h
  unfold Window.ack
  simp only
  split
  · constructor <;> simp <;> omega
  · constructor <;> assumption

/-- Facts about an emitted block. -/
theorem Window.next_some {file bs size w retry i again}
    (h : Window.Inv file bs size w) (hn : (w.next file bs size retry).2 = some (i, again)) :
    w.base < i ∧ i ≤ w.base + size ∧ i ≤ nblocks file bs ∧ (again = false ↔ i = w.top + 1) ∧
    (w.next file bs size retry).1 = ⟨w.base, i, max w.top i⟩ := by
  obtain ⟨h1, h2, h3, h4⟩ := h
  unfold Window.next at hn ⊢
  split at hn
  · simp only [Option.some.injEq, Prod.mk.injEq] at hn
    obtain ⟨rfl, rfl⟩ := hn
    rw [if_pos (by assumption)]
    simp only [Window.mk.injEq, true_and]
    refine ⟨by omega, by omega, by omega, ?_, by omega⟩
    simp; omega
  · rw [if_neg (by assumption)]
    split at hn
    · simp only [Option.some.injEq, Prod.mk.injEq] at hn
      obtain ⟨rfl, rfl⟩ := hn
      rw [if_pos (by assumption)]
      simp only [Window.mk.injEq, true_and]
      refine ⟨by omega, by omega, by omega, ?_, by omega⟩
      simp; omega
    · rw [if_neg (by assumption)]
      split at hn
      · simp only [Option.some.injEq, Prod.mk.injEq] at hn
        obtain ⟨rfl, rfl⟩ := hn
        rw [if_pos (by assumption)]
        refine ⟨by omega, by omega, by omega, by simp, ?_⟩
        simp only [Window.mk.injEq, true_and]
        omega
      · simp at hn

/-- What a reader has to return for a window answer. -/
def expect (file : Bytes) (bs : Nat) : Option (Nat × Bool) → NextOut
  | none => .none
  | some (i, again) => .block ⟨i % 65536, i, block file bs i, again⟩

end Tftp.Spec

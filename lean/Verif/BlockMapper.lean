/-
Model of /repo/src/block_mapper.rs and proof of C05.
`u64` set counters are modelled as `Nat` (2^64 sets of 65536 blocks are unreachable).
Block numbers (`u16`) are `Nat`s below 65536.
-/
namespace Tftp

/-- src/block_mapper.rs:1-5 `BlockMapper`. -/
structure Mapper where
  cur : Nat
  next : Nat
deriving DecidableEq, Repr

/-- src/block_mapper.rs:8-13 `BlockMapper::new`. -/
def Mapper.new : Mapper := ⟨1, 1⟩

/-- src/block_mapper.rs:16-18: entering the last 10000 numbers of a set announces the next set. -/
def Mapper.announce (m : Mapper) (block : Nat) : Mapper :=
  if m.cur = m.next ∧ block > 65535 - 10000 then { m with next := m.next + 1 } else m

/-- src/block_mapper.rs:27-32: index of a block in the current set. -/
def Mapper.inCurrent (m : Mapper) (block : Nat) : Nat :=
  let c := m.cur - 1
  let i := c * 65535 + block
  if c > 0 then i + c else i

/-- src/block_mapper.rs:15-33 `BlockMapper::index`. -/
def Mapper.index (m : Mapper) (block : Nat) : Mapper × Nat :=
  let m := m.announce block
  if m.cur ≠ m.next then
    if block < 10000 then
      let nb := m.next - 1
      (m, nb * 65535 + block + nb)
    else if 10000 ≤ block ∧ block < 20000 then
      let m := { m with cur := m.cur + 1 }
      (m, m.inCurrent block)
    else (m, m.inCurrent block)
  else (m, m.inCurrent block)

/-- src/block_mapper.rs:58-64 `BlockMapper::block`. -/
def blockOf (index : Nat) : Nat :=
  if index > 65535 then
    let part := index / (65535 + 1)
    (index - part * (65535 + 1)) % 65536
  else index % 65536

theorem blockOf_eq (i : Nat) : blockOf i = i % 65536 := by
  unfold blockOf; split <;> simp only [] <;> omega

theorem blockOf_lt (i : Nat) : blockOf i < 65536 := by rw [blockOf_eq]; omega

/-- Feed a list of block numbers to a mapper; the indices it answers. -/
def Mapper.run (m : Mapper) : List Nat → List Nat
  | [] => []
  | b :: r => (m.index b).2 :: (m.index b).1.run r

/-- Relation between the mapper state and the largest true index `M` seen so far. -/
def Mapper.Inv (m : Mapper) (M : Nat) : Prop :=
  1 ≤ m.cur ∧
  ((m.next = m.cur ∧ M ≤ 65536 * (m.cur - 1) + 55535 ∧ (m.cur = 1 ∨ 65536 * (m.cur - 1) + 10000 ≤ M)) ∨
   (m.next = m.cur + 1 ∧ 65536 * (m.cur - 1) + 55536 ≤ M ∧ M < 65536 * m.cur + 10000))

theorem Mapper.inv_new : Mapper.new.Inv 0 := by simp [Mapper.Inv, Mapper.new]

/-- One step: a block whose true index `t` is within 10000 of the maximum is mapped to `t`. -/
theorem Mapper.index_step (m : Mapper) (M t : Nat) (h : m.Inv M)
    (h1 : M ≤ t + 10000) (h2 : t ≤ M + 10000) :
    (m.index (t % 65536)).2 = t ∧ (m.index (t % 65536)).1.Inv (max M t) := by
  obtain ⟨c, n⟩ := m
  simp only [Mapper.Inv] at h
  obtain ⟨hc, h⟩ := h
  obtain ⟨c, rfl⟩ : ∃ k, c = k + 1 := ⟨c - 1, by omega⟩
  simp only [Nat.add_sub_cancel] at h
  -- split the true index in set and block
  have hdiv := Nat.div_add_mod t 65536
  have hmod := Nat.mod_lt t (show 0 < 65536 by decide)
  generalize hb : t % 65536 = b at *
  generalize hs : t / 65536 = s at *
  rcases h with ⟨rfl, hM1, hM2⟩ | ⟨rfl, hM1, hM2⟩
  · -- settled in one set
    have hsc : s = c := by omega
    subst hsc
    by_cases hbig : b > 55535
    · simp only [Mapper.index, Mapper.announce, hbig, and_self, if_true, Nat.reduceSub]
      rw [if_pos (by simp), if_neg (by omega), if_neg (by omega)]
      simp only [Mapper.inCurrent, Mapper.Inv, Nat.add_sub_cancel]
      constructor
      · split <;> omega
      · refine ⟨by omega, Or.inr ⟨by simp, by omega, by omega⟩⟩
    · simp only [Mapper.index, Mapper.announce, hbig, Nat.reduceSub, and_false, if_false]
      rw [if_neg (by simp)]
      simp only [Mapper.inCurrent, Mapper.Inv, Nat.add_sub_cancel]
      constructor
      · split <;> omega
      · refine ⟨by omega, Or.inl ⟨by simp, by omega, by omega⟩⟩
  · -- crossing into the next set
    have hsc : s = c ∨ s = c + 1 := by omega
    have hann : Mapper.announce ⟨c + 1, c + 1 + 1⟩ b = ⟨c + 1, c + 1 + 1⟩ := by
      simp [Mapper.announce]
    simp only [Mapper.index, hann]
    rw [if_pos (by simp)]
    by_cases hlow : b < 10000
    · rw [if_pos hlow]
      have : s = c + 1 := by omega
      subst this
      simp only [Mapper.Inv, Nat.add_sub_cancel]
      constructor
      · omega
      · refine ⟨by omega, Or.inr ⟨by simp, by omega, by omega⟩⟩
    · rw [if_neg hlow]
      by_cases hmid : 10000 ≤ b ∧ b < 20000
      · rw [if_pos hmid]
        have : s = c + 1 := by omega
        subst this
        simp only [Mapper.inCurrent, Mapper.Inv, Nat.add_sub_cancel]
        constructor
        · split <;> omega
        · refine ⟨by omega, Or.inl ⟨by simp, by omega, by omega⟩⟩
      · rw [if_neg hmid]
        have : s = c := by omega
        subst this
        simp only [Mapper.inCurrent, Mapper.Inv, Nat.add_sub_cancel]
        constructor
        · split <;> omega
        · refine ⟨by omega, Or.inr ⟨by simp, by omega, by omega⟩⟩

/-- Specification: every index of the history is within `d` of the largest index before it
(starting from `M`). -/
def Spec.Near (d : Nat) : Nat → List Nat → Prop
  | _, [] => True
  | M, t :: r => M ≤ t + d ∧ t ≤ M + d ∧ Spec.Near d (max M t) r

theorem Mapper.run_near (m : Mapper) (M : Nat) (ts : List Nat) (h : m.Inv M)
    (hn : Spec.Near 10000 M ts) : m.run (ts.map (· % 65536)) = ts := by
  induction ts generalizing m M with
  | nil => rfl
  | cons t r ih =>
    obtain ⟨h1, h2, h3⟩ := hn
    obtain ⟨hi, hinv⟩ := m.index_step M t h h1 h2
    simp only [List.map_cons, Mapper.run, hi, List.cons.injEq, true_and]
    exact ih _ _ hinv h3

/-- **C05**: whatever the order in which 16 bit block numbers of a transfer arrive, if each true
index is within 10000 of the largest one before it, a fresh mapper recovers every true index from
the index modulo 65536, for histories of any length and any number of wraparounds. -/
theorem c05_index_recovered (ts : List Nat) (h : Spec.Near 10000 0 ts) :
    Mapper.new.run (ts.map (· % 65536)) = ts :=
  Mapper.new.run_near 0 ts Mapper.inv_new h

/-- The sender's block numbering is the true index modulo 65536, so numbering then mapping is the
identity. -/
theorem c05_block_then_index (ts : List Nat) (h : Spec.Near 10000 0 ts) :
    Mapper.new.run (ts.map blockOf) = ts := by
  have : ts.map blockOf = ts.map (· % 65536) := by
    apply List.map_congr_left; intro a _; exact blockOf_eq a
  rw [this]; exact c05_index_recovered ts h

/-- Non-vacuity: an out of order history crossing the first wraparound satisfies the hypothesis. -/
example : Spec.Near 10000 0 [9000, 18000, 27000, 36000, 45000, 54000, 62000, 65536, 65000, 65540,
    75000, 70000] := by simp [Spec.Near]

/-- The displacement bound matters: one stray block number near the top of the range shifts all
later blocks of the first set by 65536 (a single forged or corrupt datagram breaks a transfer). -/
theorem c05_stray_block_breaks_mapping : Mapper.new.run [60000, 1] = [60000, 65537] := by decide

/-- The bound 10000 is sharp: with displacement 10001 there is a history which is misread. -/
theorem c05_bound_sharp : ∃ ts : List Nat, Spec.Near 10001 0 ts ∧
    Mapper.new.run (ts.map (· % 65536)) ≠ ts :=
  ⟨[10000, 20000, 30000, 40000, 50000, 60000, 70000, 75535, 85536], by simp [Spec.Near], by decide⟩

end Tftp

import Verif.WindowProps
import Verif.SeekSim
/- The in-memory multi block reader refines the sliding window specification. -/
namespace Tftp
open Spec

/-- Indices of the blocks held in memory. -/
def indices (l : List Slot) : List Nat := l.filterMap (·.index)

structure MultiSim (file : Bytes) (bs size : Nat) (m : Mapper) (s : MultiR) (w : Window) : Prop where
  inv : Window.Inv file bs size w
  file_eq : s.reader.file = file
  pos : s.reader.pos = bytesIn file bs w.top
  bs_eq : s.bs = bs
  max_eq : s.max = size
  mapper : s.mapper = m
  cur : s.blockRead = w.cur
  fin : s.finished = decide (w.top = nblocks file bs)
  idx : (indices s.slots).Perm (List.range' (w.base + 1) (w.top - w.base))
  data : ∀ b ∈ s.slots, ∀ i, b.index = some i → b.data = block file bs i
  free : w.top ≠ nblocks file bs → ∀ b ∈ s.slots, b.index = none → b.data.length = bs

theorem MultiSim.init (file : Bytes) (bs size : Nat) :
    MultiSim file bs size Mapper.new (MultiR.new file bs size) Window.init := by
  constructor <;> simp [MultiR.new, Window.init, bytesIn, nblocks, indices]
  exact Window.inv_init _ _ _

theorem live_length (l : List Slot) :
    (l.filter fun b => b.index.isSome).length = (indices l).length := by
  induction l with
  | nil => rfl
  | cons b r ih =>
    cases h : b.index with
    | none => simpa [indices, List.filterMap_cons, h] using ih
    | some i => simpa [indices, List.filterMap_cons, h] using ih

theorem MultiSim.live_length {file bs size m s w} (h : MultiSim file bs size m s w) :
    s.live.length = w.top - w.base := by
  rw [MultiR.live, Tftp.live_length, h.idx.length_eq, List.length_range']

theorem MultiSim.finished {file bs size m s w} (h : MultiSim file bs size m s w) :
    s.isFinished = decide (Window.finished file bs w) := by
  have := h.inv.base_cur
  have := h.inv.cur_top
  rw [Bool.eq_iff_iff, decide_eq_true_eq, Window.finished]
  simp only [MultiR.isFinished, h.live_length, h.fin, Bool.and_eq_true, beq_iff_eq,
    decide_eq_true_eq]
  constructor
  · rintro ⟨h1, h2⟩; exact ⟨by omega, h2⟩
  · rintro ⟨h1, h2⟩; exact ⟨by omega, h2⟩

theorem mem_indices {l : List Slot} {i : Nat} : i ∈ indices l ↔ ∃ b ∈ l, b.index = some i := by
  simp [indices]

theorem MultiSim.mem_idx {file bs size m s w} (h : MultiSim file bs size m s w) (i : Nat) :
    (∃ b ∈ s.slots, b.index = some i) ↔ w.base < i ∧ i ≤ w.top := by
  have := h.inv.base_cur
  have := h.inv.cur_top
  rw [← mem_indices, h.idx.mem_iff, List.mem_range'_1]
  omega

theorem minSlot_fold (l : List Slot) (a : Slot) :
    let r := l.foldl (fun m b => if (b.index.getD 0) < (m.index.getD 0) then b else m) a
    (r = a ∨ r ∈ l) ∧ r.index.getD 0 ≤ a.index.getD 0 ∧
      ∀ x ∈ l, r.index.getD 0 ≤ x.index.getD 0 := by
  induction l generalizing a with
  | nil => simp
  | cons b r ih =>
    simp only [List.foldl_cons]
    by_cases hlt : (b.index.getD 0) < (a.index.getD 0)
    · rw [if_pos hlt]
      obtain ⟨h1, h2, h3⟩ := ih b
      refine ⟨?_, by omega, ?_⟩
      · rcases h1 with h1 | h1
        · right; rw [h1]; simp
        · right; simp [h1]
      · intro x hx
        rcases List.mem_cons.mp hx with rfl | hx
        · exact h2
        · exact h3 x hx
    · rw [if_neg hlt]
      obtain ⟨h1, h2, h3⟩ := ih a
      refine ⟨?_, h2, ?_⟩
      · rcases h1 with h1 | h1
        · left; exact h1
        · right; simp [h1]
      · intro x hx
        rcases List.mem_cons.mp hx with rfl | hx
        · omega
        · exact h3 x hx

theorem minSlot_none {l : List Slot} : minSlot l = none ↔ l = [] := by
  cases l <;> simp [minSlot]

theorem minSlot_some {l : List Slot} {b : Slot} (h : minSlot l = some b) :
    b ∈ l ∧ ∀ x ∈ l, b.index.getD 0 ≤ x.index.getD 0 := by
  cases l with
  | nil => simp [minSlot] at h
  | cons a r =>
    simp only [minSlot, Option.some.injEq] at h
    have := minSlot_fold r a
    simp only [h] at this
    obtain ⟨h1, h2, h3⟩ := this
    refine ⟨?_, ?_⟩
    · rcases h1 with rfl | h1 <;> simp_all
    · intro x hx
      rcases List.mem_cons.mp hx with rfl | hx
      · exact h2
      · exact h3 x hx

theorem MultiSim.minSlot {file bs size m s w} (h : MultiSim file bs size m s w)
    (hlt : w.base < w.top) :
    ∃ b, minSlot s.live = some b ∧ b.index = some (w.base + 1) ∧ b.data = block file bs (w.base + 1) := by
  obtain ⟨b0, hb0, hi0⟩ := (h.mem_idx (w.base + 1)).mpr ⟨by omega, by omega⟩
  have hl0 : b0 ∈ s.live := by simp [MultiR.live, hb0, hi0]
  cases hm : Tftp.minSlot s.live with
  | none => rw [minSlot_none] at hm; rw [hm] at hl0; simp at hl0
  | some b =>
    obtain ⟨hb, hmin⟩ := minSlot_some hm
    have hle := hmin b0 hl0
    simp only [MultiR.live, List.mem_filter, Option.isSome_iff_exists] at hb
    obtain ⟨hbm, i, hi⟩ := hb
    have := (h.mem_idx i).mp ⟨b, hbm, hi⟩
    rw [hi, hi0] at hle
    simp only [Option.getD_some] at hle
    have hii : i = w.base + 1 := by omega
    subst hii
    exact ⟨b, rfl, hi, h.data b hbm _ hi⟩

theorem mem_putSlot {new b : Slot} {l : List Slot} (h : b ∈ putSlot new l) : b = new ∨ b ∈ l := by
  induction l with
  | nil => simp [putSlot] at h; exact Or.inl h
  | cons a r ih =>
    simp only [putSlot] at h
    split at h
    · rcases List.mem_cons.mp h with h | h
      · exact Or.inl h
      · right; simp [h]
    · rcases List.mem_cons.mp h with h | h
      · right; simp [h]
      · rcases ih h with h | h
        · exact Or.inl h
        · right; simp [h]

theorem indices_putSlot_some (d : Bytes) (i : Nat) (l : List Slot) :
    (indices (putSlot ⟨d, some i⟩ l)).Perm (indices l ++ [i]) := by
  induction l with
  | nil => simp [putSlot, indices]
  | cons a r ih =>
    simp only [putSlot]
    cases ha : a.index with
    | none =>
      simp only [Option.isNone_none, if_true]
      simp only [indices, List.filterMap_cons, ha]
      exact (List.perm_append_singleton i _).symm
    | some j =>
      simp only [Option.isNone_some, Bool.false_eq_true, if_false]
      simp only [indices, List.filterMap_cons, ha, List.cons_append]
      exact List.Perm.cons j ih

theorem indices_putSlot_none (d : Bytes) (l : List Slot) :
    indices (putSlot ⟨d, none⟩ l) = indices l := by
  induction l with
  | nil => simp [putSlot, indices]
  | cons a r ih =>
    simp only [putSlot]
    cases ha : a.index with
    | none => simp [indices, ha]
    | some j =>
      simp only [Option.isNone_some, Bool.false_eq_true, if_false]
      simp only [indices, List.filterMap_cons, ha] at ih ⊢
      rw [ih]

theorem freeData_length {bs : Nat} {l : List Slot}
    (h : ∀ b ∈ l, b.index = none → b.data.length = bs) : (freeData bs l).length = bs := by
  unfold freeData
  split
  · next b hb =>
    have h1 := List.mem_of_find?_eq_some hb
    have h2 := List.find?_some hb
    exact h b h1 (by simpa using h2)
  · simp

theorem MultiSim.next {file bs size m s w} (hbs : 0 < bs) (h : MultiSim file bs size m s w)
    (retry fail : Bool) (cap : Nat) (hcap : bs ≤ cap) :
    (fail = true ∧ (s.next retry fail cap).2 = .ioErr ∧
      MultiSim file bs size m (s.next retry fail cap).1 w) ∨
    ((s.next retry fail cap).2 = expect file bs (w.next file bs size retry).2 ∧
      MultiSim file bs size m (s.next retry fail cap).1 (w.next file bs size retry).1) := by
  have hfin := h.finished
  have hlive := h.live_length
  obtain ⟨i1, i2, i3, i4⟩ := h.inv
  have hblk : ∀ i, (block file bs i).length ≤ cap := fun i =>
    Nat.le_trans (block_length_le _ _ _) hcap
  have hmem := h.mem_idx
  unfold MultiR.next Window.next
  rw [hfin]
  by_cases hf : Window.finished file bs w
  · right
    simp only [hf, decide_true, if_true]
    obtain ⟨hf1, hf2⟩ := hf
    rw [if_neg (by simp; omega), if_neg (by omega), if_neg (by omega)]
    exact ⟨rfl, h⟩
  · simp only [hf, decide_false, Bool.false_eq_true, if_false]
    by_cases hr : retry = true ∧ w.base < w.top
    · obtain ⟨b, hb1, hb2, hb3⟩ := h.minSlot hr.2
      rw [if_pos hr]
      simp only [hr.1, if_true, hb1, hb2, hb3, Option.getD_some, hblk]
      right
      simp only [expect, blockOf_eq]
      refine ⟨trivial, ?_⟩
      obtain ⟨_, e1, e2, e3, e4, e5, e6, e7, e8, e9, e10⟩ := h
      constructor <;> first | assumption | rfl | skip
      constructor <;> simp <;> omega
    · have hr' : (if retry = true then Tftp.minSlot s.live else none) = none := by
        split
        · next hrt =>
          rw [minSlot_none]
          apply List.eq_nil_of_length_eq_zero
          rw [hlive]
          simp [hrt] at hr
          omega
        · rfl
      rw [if_neg hr, hr']
      simp only
      by_cases hc : w.cur < w.top
      · rw [if_pos hc]
        obtain ⟨b0, hb0, hi0⟩ := (hmem (w.cur + 1)).mpr ⟨by omega, by omega⟩
        cases hfd : s.slots.find? (fun b => b.index == some (s.blockRead + 1)) with
        | none =>
          rw [List.find?_eq_none] at hfd
          exact absurd hi0 (by have := hfd b0 hb0; rw [h.cur] at this; simpa using this)
        | some b =>
          have hbm := List.mem_of_find?_eq_some hfd
          have hbi := List.find?_some hfd
          simp only [beq_iff_eq] at hbi
          rw [h.cur] at hbi
          have hbd := h.data b hbm _ hbi
          simp only [hbd, hblk, if_true]
          right
          simp only [expect, blockOf_eq, h.cur]
          refine ⟨trivial, ?_⟩
          obtain ⟨_, e1, e2, e3, e4, e5, e6, e7, e8, e9, e10⟩ := h
          constructor <;> first | assumption | rfl | skip
          constructor <;> simp <;> omega
      · rw [if_neg hc]
        have hct : w.cur = w.top := by omega
        have hfd : s.slots.find? (fun b => b.index == some (s.blockRead + 1)) = none := by
          rw [List.find?_eq_none]
          intro b hb hbi
          simp only [beq_iff_eq] at hbi
          rw [h.cur] at hbi
          have := (hmem _).mp ⟨b, hb, hbi⟩
          omega
        rw [hfd]
        simp only
        by_cases hn : w.top < nblocks file bs ∧ w.top - w.base < size
        · have hcond : ¬ ((s.finished || decide (s.live.length ≥ s.max)) = true) := by
            rw [h.fin, hlive, h.max_eq]; simp; omega
          rw [if_pos hn, if_neg hcond]
          have hlen := freeData_length (h.free (by omega))
          rw [h.bs_eq, hlen]
          cases fail with
          | true =>
            left
            refine ⟨rfl, rfl, ?_⟩
            simp only [FileR.read, if_true]
            obtain ⟨e0, e1, e2, e3, e4, e5, e6, e7, e8, e9, e10⟩ := h
            constructor <;> first | assumption | rfl | skip
            · rw [indices_putSlot_none]; exact e8
            · intro b hb i hi
              rcases mem_putSlot hb with rfl | hb
              · simp at hi
              · exact e9 b hb i hi
            · intro hN b hb hi
              rcases mem_putSlot hb with rfl | hb
              · exact hlen
              · exact e10 hN b hb hi
          | false =>
            right
            rw [FileR.read_block (file := file) (bs := bs) (i := w.top + 1) h.file_eq
              (by rw [h.pos, bytesIn_lt_nblocks _ _ _ hbs hn.1]; simp)]
            simp only [hblk, if_true, expect, blockOf_eq, h.cur, hct]
            refine ⟨trivial, ?_⟩
            obtain ⟨e0, e1, e2, e3, e4, e5, e6, e7, e8, e9, e10⟩ := h
            constructor <;> first | assumption | rfl | skip
            · constructor <;> simp <;> omega
            · simp only [e2, block_length _ _ (w.top + 1) (by omega), Nat.add_sub_cancel]
              have := bytesIn_mono file bs (Nat.le_add_right w.top 1)
              omega
            · simp only [e7]
              have hs := block_short_iff file bs (w.top + 1) hbs (by omega) (by omega)
              have : w.top ≠ nblocks file bs := by omega
              simp only [this, decide_false, Bool.false_or, hs]
            · refine (indices_putSlot_some _ _ _).trans ?_
              have : w.top + 1 - w.base = (w.top - w.base) + 1 := by omega
              simp only [this, List.range'_concat]
              have h2 : w.base + 1 + 1 * (w.top - w.base) = w.top + 1 := by omega
              rw [h2]
              exact List.Perm.append_right _ e8
            · intro b hb i hi
              rcases mem_putSlot hb with rfl | hb
              · simp only [Option.some.injEq] at hi; subst hi; rfl
              · exact e9 b hb i hi
            · intro hN b hb hi
              rcases mem_putSlot hb with rfl | hb
              · simp at hi
              · exact e10 (by omega) b hb hi
        · have hcond : (s.finished || decide (s.live.length ≥ s.max)) = true := by
            rw [h.fin, hlive, h.max_eq]; simp; omega
          rw [if_neg hn, if_pos hcond]
          right
          exact ⟨rfl, h⟩

/-! ### free -/

theorem indices_gone (l : List Slot) (t : Nat) :
    indices (l.filter (freed t)) = (indices l).filter (fun i => decide (i ≤ t)) := by
  induction l with
  | nil => rfl
  | cons b r ih =>
    cases hb : b.index with
    | none => simpa [indices, List.filter_cons, List.filterMap_cons, freed, hb] using ih
    | some i =>
      by_cases hi : i ≤ t
      · simpa [indices, List.filter_cons, List.filterMap_cons, freed, hb, hi] using ih
      · simpa [indices, List.filter_cons, List.filterMap_cons, freed, hb, hi] using ih

theorem indices_kept (l : List Slot) (t : Nat) :
    indices (l.map fun b => if freed t b then { b with index := none } else b) =
      (indices l).filter (fun i => decide (t < i)) := by
  induction l with
  | nil => rfl
  | cons b r ih =>
    cases hb : b.index with
    | none => simpa [indices, List.filterMap_cons, freed, hb] using ih
    | some i =>
      by_cases hi : i ≤ t
      · have : ¬ t < i := by omega
        simpa [indices, List.filterMap_cons, freed, hb, hi, this] using ih
      · have : t < i := by omega
        simpa [indices, List.filterMap_cons, freed, hb, hi, this] using ih

theorem sum_gone (file : Bytes) (bs : Nat) (l : List Slot) (n : Nat)
    (hl : ∀ b ∈ l, ∃ i, b.index = some i ∧ b.data = block file bs i) :
    l.foldl (fun n b => n + b.data.length) n =
      n + ((indices l).map fun i => (block file bs i).length).sum := by
  induction l generalizing n with
  | nil => simp [indices]
  | cons b r ih =>
    obtain ⟨i, hi, hd⟩ := hl b (by simp)
    rw [List.foldl_cons, ih _ (fun b hb => hl b (by simp [hb]))]
    simp [indices, hi, hd, Nat.add_assoc]

theorem last_gone (l : List Slot) (acc : Option Nat) :
    l.foldl (fun (l : Option Nat) b => Max.max l b.index) acc =
      (indices l).foldl (fun a i => Max.max a (some i)) acc := by
  induction l generalizing acc with
  | nil => rfl
  | cons b r ih =>
    rw [List.foldl_cons, ih]
    cases hb : b.index with
    | none =>
      simp only [indices, List.filterMap_cons, hb]
      cases acc <;> rfl
    | some i => simp only [indices, List.filterMap_cons, hb, List.foldl_cons]

theorem foldl_max_some (l : List Nat) (a : Nat) :
    l.foldl (fun a i => Max.max a (some i)) (some a) = some (l.foldl Max.max a) := by
  induction l generalizing a with
  | nil => rfl
  | cons x r ih => simp only [List.foldl_cons]; rw [← ih]; rfl

theorem foldl_max_le (l : List Nat) (a : Nat) :
    a ≤ l.foldl Max.max a ∧ (∀ x ∈ l, x ≤ l.foldl Max.max a) ∧
      (l.foldl Max.max a = a ∨ l.foldl Max.max a ∈ l) := by
  induction l generalizing a with
  | nil => simp
  | cons x r ih =>
    obtain ⟨h1, h2, h3⟩ := ih (max a x)
    simp only [List.foldl_cons]
    refine ⟨by omega, ?_, ?_⟩
    · intro y hy
      rcases List.mem_cons.mp hy with rfl | hy
      · omega
      · exact h2 y hy
    · rcases h3 with h3 | h3
      · rw [h3]
        by_cases hax : a ≤ x
        · right; rw [Nat.max_eq_right hax]; simp
        · left; exact Nat.max_eq_left (by omega)
      · right; simp [h3]

theorem last_none_iff (l : List Nat) :
    l.foldl (fun a i => Max.max a (some i)) (none : Option Nat) = none ↔ l = [] := by
  cases l with
  | nil => simp
  | cons x r =>
    simp only [List.foldl_cons]
    have : Max.max (none : Option Nat) (some x) = some x := rfl
    rw [this, foldl_max_some]
    simp

theorem last_some {l : List Nat} {k : Nat}
    (h : l.foldl (fun a i => Max.max a (some i)) (none : Option Nat) = some k) :
    k ∈ l ∧ ∀ x ∈ l, x ≤ k := by
  cases l with
  | nil => simp at h
  | cons x r =>
    simp only [List.foldl_cons] at h
    have hx : Max.max (none : Option Nat) (some x) = some x := rfl
    rw [hx, foldl_max_some] at h
    injection h with h
    obtain ⟨h1, h2, h3⟩ := foldl_max_le r x
    rw [h] at h1 h2 h3
    constructor
    · rcases h3 with h3 | h3 <;> simp [h3]
    · intro y hy
      rcases List.mem_cons.mp hy with rfl | hy
      · exact h1
      · exact h2 y hy

theorem range'_filter_le (a n t : Nat) :
    (List.range' (a + 1) n).filter (fun i => decide (i ≤ t)) =
      List.range' (a + 1) (min t (a + n) - a) := by
  induction n with
  | zero => simp; omega
  | succ n ih =>
    rw [List.range'_concat, List.filter_append, ih]
    by_cases h : a + 1 + 1 * n ≤ t
    · have e1 : min t (a + (n + 1)) - a = (min t (a + n) - a) + 1 := by omega
      have e2 : a + 1 + 1 * (min t (a + n) - a) = a + 1 + 1 * n := by omega
      rw [e1, List.range'_concat, e2]
      simp; omega
    · have e1 : min t (a + (n + 1)) - a = min t (a + n) - a := by omega
      rw [e1]
      simp; omega

theorem range'_filter_gt (a n t : Nat) :
    (List.range' (a + 1) n).filter (fun i => decide (t < i)) =
      List.range' (max a (min t (a + n)) + 1) (a + n - max a (min t (a + n))) := by
  induction n with
  | zero => simp; omega
  | succ n ih =>
    rw [List.range'_concat, List.filter_append, ih]
    by_cases h : t < a + 1 + 1 * n
    · have e0 : max a (min t (a + (n + 1))) = max a (min t (a + n)) := by omega
      have e1 : a + (n + 1) - max a (min t (a + n)) = (a + n - max a (min t (a + n))) + 1 := by omega
      have e2 : max a (min t (a + n)) + 1 + 1 * (a + n - max a (min t (a + n))) = a + 1 + 1 * n := by
        omega
      rw [e0, e1, List.range'_concat, e2]
      simp; omega
    · have e1 : a + (n + 1) - max a (min t (a + (n + 1))) = 0 := by omega
      have e2 : a + n - max a (min t (a + n)) = 0 := by omega
      rw [e1, e2]
      simp; omega

theorem sum_range' (file : Bytes) (bs a n : Nat) :
    ((List.range' (a + 1) n).map fun i => (block file bs i).length).sum =
      bytesIn file bs (a + n) - bytesIn file bs a := by
  induction n with
  | zero => simp
  | succ n ih =>
    rw [List.range'_concat, List.map_append, List.sum_append, ih]
    simp only [List.map_cons, List.map_nil, List.sum_cons, List.sum_nil, Nat.one_mul, Nat.add_zero]
    rw [block_length _ _ _ (by omega)]
    have e : a + 1 + n - 1 = a + n := by omega
    have h1 := bytesIn_mono file bs (Nat.le_add_right a n)
    have h2 := bytesIn_mono file bs (show a + n ≤ a + (n + 1) by omega)
    have e2 : a + 1 + n = a + (n + 1) := by omega
    rw [e, e2]
    omega

theorem MultiSim.free_step {file bs size m s w} (hbs : 0 < bs) (h : MultiSim file bs size m s w)
    (blk : Nat) :
    (s.free blk).2 = (w.ack file bs (m.index blk).2).2 ∧
      MultiSim file bs size (m.index blk).1 (s.free blk).1 (w.ack file bs (m.index blk).2).1 := by
  have hinv' := Window.inv_ack (t := (m.index blk).2) h.inv
  obtain ⟨i1, i2, i3, i4⟩ := h.inv
  have hdl : ∀ t, ∀ b ∈ s.slots.filter (freed t), ∃ i, b.index = some i ∧ b.data = block file bs i := by
    intro t b hb
    simp only [List.mem_filter, freed] at hb
    cases hbi : b.index with
    | none => simp [hbi] at hb
    | some i => exact ⟨i, rfl, h.data b hb.1 i hbi⟩
  have htop : w.base + (w.top - w.base) = w.top := by omega
  unfold MultiR.free
  rw [h.mapper]
  generalize hmi : m.index blk = mi at *
  obtain ⟨m2, t⟩ := mi
  simp only
  have hgi : (indices (s.slots.filter (freed t))).Perm
      (List.range' (w.base + 1) (min t w.top - w.base)) := by
    rw [indices_gone]
    have := h.idx.filter (fun i => decide (i ≤ t))
    rwa [range'_filter_le, htop] at this
  have hsize : (s.slots.filter (freed t)).foldl (fun n b => n + b.data.length) 0 =
      bytesIn file bs (w.base + (min t w.top - w.base)) - bytesIn file bs w.base := by
    rw [sum_gone file bs _ 0 (hdl t), Nat.zero_add, (hgi.map _).sum_nat, sum_range']
  have hkept : (indices (s.slots.map fun b => if freed t b then { b with index := none } else b)).Perm
      (List.range' (max w.base (min t w.top) + 1) (w.top - max w.base (min t w.top))) := by
    rw [indices_kept]
    have := h.idx.filter (fun i => decide (t < i))
    rwa [range'_filter_gt, htop] at this
  have hdata : ∀ b ∈ (s.slots.map fun b => if freed t b then { b with index := none } else b),
      ∀ i, b.index = some i → b.data = block file bs i := by
    intro b hb i hi
    simp only [List.mem_map] at hb
    obtain ⟨b', hb', rfl⟩ := hb
    split at hi
    · simp at hi
    · next hfr => rw [if_neg hfr]; exact h.data b' hb' i hi
  have hfree : w.top ≠ nblocks file bs →
      ∀ b ∈ (s.slots.map fun b => if freed t b then { b with index := none } else b),
      b.index = none → b.data.length = bs := by
    intro hN b hb hi
    simp only [List.mem_map] at hb
    obtain ⟨b', hb', rfl⟩ := hb
    split at hi
    · next hfr =>
      rw [if_pos hfr]
      simp only
      obtain ⟨i, hbi, hbd⟩ := hdl t b' (by simp [hb', hfr])
      have hr := (h.mem_idx i).mp ⟨b', hb', hbi⟩
      have hs := block_short_iff file bs i hbs (by omega) (by omega)
      have hle := block_length_le file bs i
      rw [hbd]
      have : i ≠ nblocks file bs := by omega
      simp only [this, iff_false] at hs
      omega
    · next hfr => rw [if_neg hfr]; exact h.free hN b' hb' hi
  rw [last_gone]
  by_cases hb : w.base < min t w.top
  · have hack : w.ack file bs t =
        (⟨min t w.top, min t w.top, w.top⟩, bytesIn file bs (min t w.top) - bytesIn file bs w.base) := by
      simp only [Window.ack]; rw [if_pos hb]
    rw [hack] at hinv' ⊢
    have hlast : (indices (s.slots.filter (freed t))).foldl (fun a i => Max.max a (some i))
        (none : Option Nat) = some (min t w.top) := by
      cases hl : (indices (s.slots.filter (freed t))).foldl (fun a i => Max.max a (some i))
          (none : Option Nat) with
      | none =>
        rw [last_none_iff] at hl
        rw [hl] at hgi
        have := hgi.length_eq
        simp only [List.length_nil, List.length_range'] at this
        omega
      | some k =>
        obtain ⟨hk1, hk2⟩ := last_some hl
        rw [hgi.mem_iff, List.mem_range'_1] at hk1
        have := hk2 (min t w.top) (by rw [hgi.mem_iff, List.mem_range'_1]; omega)
        congr 1
        omega
    rw [hlast]
    simp only
    constructor
    · rw [hsize]; congr 2; omega
    · obtain ⟨e0, e1, e2, e3, e4, e5, e6, e7, e8, e9, e10⟩ := h
      constructor <;> first | assumption | rfl | skip
      have hm : max w.base (min t w.top) = min t w.top := by omega
      rw [hm] at hkept
      exact hkept
  · have hack : w.ack file bs t = (w, 0) := by
      simp only [Window.ack]; rw [if_neg hb]
    rw [hack] at hinv' ⊢
    have hz : min t w.top - w.base = 0 := by omega
    have hlast : (indices (s.slots.filter (freed t))).foldl (fun a i => Max.max a (some i))
        (none : Option Nat) = none := by
      rw [last_none_iff]
      apply List.eq_nil_of_length_eq_zero
      rw [hgi.length_eq, List.length_range', hz]
    rw [hlast]
    simp only
    constructor
    · rw [hsize, hz]; simp
    · obtain ⟨e0, e1, e2, e3, e4, e5, e6, e7, e8, e9, e10⟩ := h
      constructor <;> first | assumption | rfl | skip
      have hm : max w.base (min t w.top) = w.base := by omega
      rw [hm] at hkept
      exact hkept

end Tftp

import Verif.WindowProps
import Verif.SeekSim
/- The single block reader refines the sliding window specification with window size 1, for
acknowledgements which do not name a block that was never sent. -/
namespace Tftp
open Spec

structure SingleSim (file : Bytes) (bs : Nat) (m : Mapper) (s : SingleR) (w : Window) : Prop where
  inv : Window.Inv file bs 1 w
  cur : w.cur = w.top
  file_eq : s.reader.file = file
  pos : s.reader.pos = bytesIn file bs w.top
  bs_eq : s.bs = bs
  mapper : s.mapper = m
  top : s.blockRead = w.top
  last : s.last = if w.base < w.top then some (block file bs w.top).length else none
  fin : s.finished = decide (w.top = nblocks file bs)
  buf : w.base < w.top → s.buffer = block file bs w.top
  len : w.top ≠ nblocks file bs → s.buffer.length = bs

theorem SingleSim.init (file : Bytes) (bs : Nat) :
    SingleSim file bs Mapper.new (SingleR.new file bs) Window.init := by
  constructor <;> simp [SingleR.new, Window.init, bytesIn, nblocks]
  exact Window.inv_init _ _ _

theorem SingleSim.finished {file bs m s w} (h : SingleSim file bs m s w) :
    s.isFinished = decide (Window.finished file bs w) := by
  have := h.inv.base_cur
  have := h.inv.cur_top
  rw [Bool.eq_iff_iff, decide_eq_true_eq, Window.finished]
  simp only [SingleR.isFinished, h.last, h.fin, Bool.and_eq_true, decide_eq_true_eq]
  constructor
  · rintro ⟨h1, h2⟩
    refine ⟨?_, h2⟩
    split at h1
    · simp at h1
    · omega
  · rintro ⟨h1, h2⟩
    refine ⟨?_, h2⟩
    rw [if_neg (by omega)]; rfl

theorem SingleSim.next {file bs m s w} (hbs : 0 < bs) (h : SingleSim file bs m s w)
    (retry fail : Bool) (cap : Nat) (hcap : bs ≤ cap) :
    (fail = true ∧ (s.next retry fail cap).2 = .ioErr ∧
      SingleSim file bs m (s.next retry fail cap).1 w) ∨
    ((s.next retry fail cap).2 = expect file bs (w.next file bs 1 retry).2 ∧
      SingleSim file bs m (s.next retry fail cap).1 (w.next file bs 1 retry).1) := by
  have hfin := h.finished
  obtain ⟨i1, i2, i3, i4⟩ := h.inv
  have hcur := h.cur
  have hblk : ∀ i, (block file bs i).length ≤ cap := fun i =>
    Nat.le_trans (block_length_le _ _ _) hcap
  unfold SingleR.next Window.next
  rw [hfin]
  by_cases hf : Window.finished file bs w
  · right
    simp only [hf, decide_true, if_true]
    obtain ⟨hf1, hf2⟩ := hf
    rw [if_neg (by simp; omega), if_neg (by omega), if_neg (by omega)]
    exact ⟨rfl, h⟩
  · simp only [hf, decide_false, Bool.false_eq_true, if_false]
    by_cases hb : w.base < w.top
    · have hl : s.last.isSome = true := by rw [h.last, if_pos hb]; rfl
      rw [if_pos hl]
      right
      cases retry with
      | true =>
        rw [if_pos (show true = true from rfl),
          if_pos (show true = true ∧ w.base < w.top from ⟨rfl, hb⟩), h.buf hb, if_pos (hblk _)]
        have hbt : w.base + 1 = w.top := by omega
        simp only [expect, blockOf_eq, h.top, hbt]
        refine ⟨trivial, ?_⟩
        obtain ⟨b, c, t⟩ := w
        simp only at *
        subst hcur
        exact h
      | false =>
        rw [if_neg (show ¬ (false = true) by simp),
          if_neg (show ¬ (false = true ∧ w.base < w.top) by simp),
          if_neg (show ¬ w.cur < w.top by omega),
          if_neg (show ¬ (w.top < nblocks file bs ∧ w.top - w.base < 1) by omega)]
        exact ⟨rfl, h⟩
    · have hl : ¬ s.last.isSome = true := by rw [h.last, if_neg hb]; simp
      rw [if_neg hl, if_neg (by omega), if_neg (by omega)]
      have hbt : w.base = w.top := by omega
      have hN : w.top ≠ nblocks file bs := fun he => hf ⟨hbt, he⟩
      rw [if_pos (by omega), h.len hN]
      cases fail with
      | true => left; exact ⟨rfl, rfl, h⟩
      | false =>
        right
        rw [FileR.read_block (file := file) (bs := bs) (i := w.top + 1) h.file_eq
          (by rw [h.pos, bytesIn_lt_nblocks _ _ _ hbs (by omega)]; simp)]
        simp only [hblk, if_true, h.top, h.bs_eq]
        have hs := block_short_iff file bs (w.top + 1) hbs (by omega) (by omega)
        have hp : s.reader.pos + (block file bs (w.top + 1)).length = bytesIn file bs (w.top + 1) := by
          rw [h.pos, block_length _ _ (w.top + 1) (by omega), Nat.add_sub_cancel]
          have := bytesIn_mono file bs (Nat.le_add_right w.top 1)
          omega
        have hfin0 : s.finished = false := by rw [h.fin]; simp [hN]
        have hle := block_length_le file bs (w.top + 1)
        have hlt : w.base < w.top + 1 := by omega
        by_cases hsh : (block file bs (w.top + 1)).length < bs
        · rw [if_pos hsh]
          simp only [expect, blockOf_eq]
          refine ⟨trivial, ?_⟩
          have := hs.mp hsh
          constructor <;> try (simp [h.mapper, hp, hlt]; done)
          · constructor <;> simp <;> omega
          · simp [this]
          · simp [this]
        · rw [if_neg hsh]
          simp only [expect, blockOf_eq]
          refine ⟨trivial, ?_⟩
          have : w.top + 1 ≠ nblocks file bs := fun he => hsh (hs.mpr he)
          constructor <;> try (simp [h.mapper, hp, hlt]; done)
          · constructor <;> simp <;> omega
          · simp [this, hfin0]
          · simp; omega

theorem SingleSim.free {file bs m s w} (h : SingleSim file bs m s w)
    (blk : Nat) (hok : (m.index blk).2 ≤ w.top) :
    (s.free blk).2 = (w.ack file bs (m.index blk).2).2 ∧
      SingleSim file bs (m.index blk).1 (s.free blk).1 (w.ack file bs (m.index blk).2).1 := by
  have hinv' := Window.inv_ack (t := (m.index blk).2) h.inv
  obtain ⟨i1, i2, i3, i4⟩ := h.inv
  unfold SingleR.free
  rw [h.mapper]
  generalize hmi : m.index blk = mi at *
  obtain ⟨m2, t⟩ := mi
  simp only [h.top] at *
  have hmin : min t w.top = t := by omega
  by_cases hb : w.base < t
  · have ht : t = w.top := by omega
    have hack : w.ack file bs t =
        (⟨t, t, w.top⟩, bytesIn file bs t - bytesIn file bs w.base) := by
      simp only [Window.ack, hmin]; rw [if_pos hb]
    rw [hack] at hinv' ⊢
    rw [if_neg (by omega)]
    have hbt : w.base < w.top := by omega
    constructor
    · simp only [h.last, hbt, if_true, Option.getD_some]
      rw [block_length _ _ _ (by omega), ht]
      congr 2
      omega
    · obtain ⟨e0, ec, e1, e2, e3, e4, e5, e6, e7, e8, e9⟩ := h
      constructor <;> first | assumption | rfl | skip
      · simp [ht]
      · simp [ht]
  · have hack : w.ack file bs t = (w, 0) := by
      simp only [Window.ack, hmin]; rw [if_neg hb]
    rw [hack]
    obtain ⟨e0, ec, e1, e2, e3, e4, e5, e6, e7, e8, e9⟩ := h
    by_cases ht : w.top = t
    · rw [if_neg (by simp [ht])]
      have hnb : ¬ w.base < w.top := by omega
      constructor
      · simp [e6, hnb]
      · constructor <;> first | assumption | rfl | skip
        simp [hnb]
    · rw [if_pos ht]
      refine ⟨rfl, ?_⟩
      constructor <;> first | assumption | rfl

end Tftp

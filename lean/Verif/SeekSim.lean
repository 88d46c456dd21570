import Verif.WindowProps
/- The seeking reader refines the sliding window specification. -/
namespace Tftp
open Spec

structure SeekSim (file : Bytes) (bs size : Nat) (m : Mapper) (s : SeekR) (w : Window) : Prop where
  inv : Window.Inv file bs size w
  file_eq : s.reader.file = file
  bs_eq : s.bs = bs
  max_eq : s.max = size
  mapper : s.mapper = m
  top : s.blockRead = w.top
  base : s.confirmed = w.base
  cur : s.current = w.cur
  offset : s.lastOffset = bytesIn file bs w.top
  fin : s.finishedSize = if w.top = nblocks file bs then some (block file bs w.top).length else none

theorem SeekSim.init (file : Bytes) (bs size : Nat) :
    SeekSim file bs size Mapper.new (SeekR.new file bs size) Window.init := by
  constructor <;> simp [SeekR.new, Window.init, bytesIn, nblocks]
  exact Window.inv_init _ _ _

theorem SeekSim.finished {file bs size m s w} (h : SeekSim file bs size m s w) :
    s.isFinished = decide (Window.finished file bs w) := by
  simp only [SeekR.isFinished, h.top, h.base, h.fin, Window.finished]
  by_cases h1 : w.top = nblocks file bs <;> by_cases h2 : w.top = w.base <;> simp [h1, h2] <;> grind

theorem FileR.read_block {r : FileR} {file : Bytes} {bs i : Nat} (hf : r.file = file)
    (hp : r.pos = (i - 1) * bs) :
    r.read bs false = some (block file bs i, ⟨file, r.pos + (block file bs i).length⟩) := by
  obtain ⟨f, p⟩ := r
  simp only at hf hp
  subst hf hp
  rfl

theorem SeekSim.next {file bs size m s w} (hbs : 0 < bs) (h : SeekSim file bs size m s w)
    (retry fail : Bool) (cap : Nat) (hcap : bs ≤ cap) :
    (fail = true ∧ (s.next retry fail cap).2 = .ioErr ∧
      SeekSim file bs size m (s.next retry fail cap).1 w) ∨
    ((s.next retry fail cap).2 = expect file bs (w.next file bs size retry).2 ∧
      SeekSim file bs size m (s.next retry fail cap).1 (w.next file bs size retry).1) := by
  have hinv := h.inv
  obtain ⟨i1, i2, i3, i4⟩ := hinv
  obtain ⟨⟨f, p⟩, m', br, cf, cu, bs', lo, mx, fs⟩ := s
  obtain ⟨b, c, t⟩ := w
  have hfin := h.finished
  obtain ⟨hinv, e1, e2, e3, e4, e5, e6, e7, e8, hfs⟩ := h
  simp only at *
  subst e1 e2 e3 e4 e5 e6 e7 e8
  unfold SeekR.next Window.next
  rw [hfin]
  by_cases hf : Window.finished f bs' ⟨cf, cu, br⟩
  · right
    simp only [hf, decide_true, if_true]
    obtain ⟨hf1, hf2⟩ := hf
    simp only at hf1 hf2
    rw [if_neg (by simp; omega), if_neg (by omega), if_neg (by omega)]
    refine ⟨rfl, ?_⟩
    constructor <;> simp_all
  · simp only [hf, decide_false]
    by_cases hr : retry = true ∧ cf < br
    · have hr' : (retry && decide (br > cf)) = true := by simp [hr.1, hr.2]
      rw [if_pos hr, hr']
      simp only [Bool.false_eq_true, if_true, if_false]
      rw [if_pos hcap]
      cases fail with
      | true => left; refine ⟨rfl, rfl, ?_⟩; constructor <;> simp_all [FileR.seek, FileR.read]
      | false =>
        right
        rw [FileR.read_block (file := f) (bs := bs') (i := cf + 1) rfl (by simp [FileR.seek])]
        have hc : (if cf > 0 then cf + 1 else 1) = cf + 1 := by split <;> omega
        simp only [hc, expect, blockOf_eq]
        refine ⟨trivial, ?_⟩
        constructor <;> simp_all
        constructor <;> simp <;> omega
    · have hr' : (retry && decide (br > cf)) = false := by
        cases retry with
        | false => rfl
        | true => simp at hr ⊢; omega
      rw [if_neg hr, hr']
      simp only [Bool.false_eq_true, if_false]
      by_cases hc : cu < br
      · rw [if_pos (show br ≥ cu + 1 by omega), if_pos hc, if_pos hcap]
        cases fail with
        | true => left; refine ⟨rfl, rfl, ?_⟩; constructor <;> simp_all [FileR.seek, FileR.read]
        | false =>
          right
          rw [FileR.read_block (file := f) (bs := bs') (i := cu + 1) rfl (by simp [FileR.seek])]
          simp only [expect, blockOf_eq]
          refine ⟨trivial, ?_⟩
          constructor <;> simp_all
          constructor <;> simp <;> omega
      · rw [if_neg (show ¬ br ≥ cu + 1 by omega), if_neg hc]
        have hcb : cu = br := by omega
        subst hcb
        by_cases hn : cu < nblocks f bs' ∧ cu - cf < mx
        · have hfs' : fs = none := by rw [hfs, if_neg (by omega)]
          subst hfs'
          have hcond : (Option.isSome (none : Option Nat) || decide (cu - cf ≥ mx)) = false := by
            simp; omega
          rw [if_pos hn, hcond]
          simp only [Bool.false_eq_true, if_false]
          have hpos : (if p ≠ bytesIn f bs' cu then
              (⟨FileR.seek ⟨f, p⟩ (bytesIn f bs' cu), m', cu, cf, cu, bs', bytesIn f bs' cu, mx, none⟩ : SeekR)
              else ⟨⟨f, p⟩, m', cu, cf, cu, bs', bytesIn f bs' cu, mx, none⟩) =
              ⟨⟨f, bytesIn f bs' cu⟩, m', cu, cf, cu, bs', bytesIn f bs' cu, mx, none⟩ := by
            split
            · rfl
            · next hp => simp at hp; simp [hp]
          rw [hpos]
          simp only [hcap, if_true]
          cases fail with
          | true => left; refine ⟨rfl, rfl, ?_⟩; constructor <;> simp_all [FileR.seek, FileR.read]
          | false =>
            right
            rw [FileR.read_block (file := f) (bs := bs') (i := cu + 1) rfl
              (by simp [bytesIn_lt_nblocks _ _ _ hbs hn.1])]
            simp only [expect, blockOf_eq]
            refine ⟨trivial, ?_⟩
            constructor <;> try (simp; done)
            · constructor <;> simp <;> omega
            · simp only [block_length _ _ (cu + 1) (by omega), Nat.add_sub_cancel]
              have := bytesIn_mono f bs' (Nat.le_add_right cu 1)
              omega
            · simp only [block_short_iff f bs' (cu + 1) hbs (by omega) (by omega)]
        · have hcond : (fs.isSome || decide (cu - cf ≥ mx)) = true := by
            rw [hfs]; split <;> simp; omega
          rw [if_neg hn, hcond]
          right
          refine ⟨rfl, ?_⟩
          constructor <;> simp_all

theorem SeekSim.free {file bs size m s w} (hbs : 0 < bs) (h : SeekSim file bs size m s w)
    (blk : Nat) (hok : ¬ Window.finished file bs w ∨ (m.index blk).2 ≤ w.base) :
    (s.free blk).2 = some (w.ack file bs (m.index blk).2).2 ∧
      SeekSim file bs size (m.index blk).1 (s.free blk).1 (w.ack file bs (m.index blk).2).1 := by
  have hinv := h.inv
  obtain ⟨i1, i2, i3, i4⟩ := hinv
  obtain ⟨⟨f, p⟩, m', br, cf, cu, bs', lo, mx, fs⟩ := s
  obtain ⟨b, c, t⟩ := w
  obtain ⟨hinv, e1, e2, e3, e4, e5, e6, e7, e8, hfs⟩ := h
  simp only [Window.finished] at *
  subst e1 e2 e3 e4 e5 e6 e7 e8
  have hinv' := Window.inv_ack (t := (m'.index blk).2) hinv
  unfold SeekR.free
  unfold Window.ack at hinv' ⊢
  generalize hmi : m'.index blk = mi at *
  obtain ⟨m2, t⟩ := mi
  simp only at *
  by_cases hgt : t > cf
  · rw [if_pos hgt]
    by_cases hb : cf < min t br
    · rw [if_pos hb] at hinv' ⊢
      have hidx : (if t > br then br else t) = min t br := by split <;> omega
      rw [hidx]
      constructor
      · -- size
        by_cases htop : min t br = br
        · rw [if_pos htop, htop]
          by_cases hlast : br = nblocks f bs'
          · simp only [hfs, hlast, if_true]
            have hN := nblocks_pos f bs'
            have e1 := bytesIn_nblocks f bs' (nblocks f bs') hbs (Nat.le_refl _)
            have e2 := bytesIn_lt_nblocks f bs' cf hbs (by omega)
            have e3 := block_length f bs' (nblocks f bs') hN
            have e4 := bytesIn_lt_nblocks f bs' (nblocks f bs' - 1) hbs (by omega)
            have e5 : (nblocks f bs' - cf) * bs' = (nblocks f bs' - 1) * bs' - cf * bs' + bs' := by
              rw [← Nat.sub_mul, ← Nat.succ_mul]; congr 1; omega
            have e6 : cf * bs' ≤ (nblocks f bs' - 1) * bs' := Nat.mul_le_mul_right _ (by omega)
            have e7 : (nblocks f bs' - 1) * bs' ≤ f.length :=
              (lt_nblocks_iff f bs' _ hbs).mp (by omega)
            rw [e1, e2, e3, e1, e4, e5]
            rw [if_pos (by omega)]
            congr 1; omega
          · simp only [hfs, hlast, if_false]
            rw [bytesIn_lt_nblocks f bs' br hbs (by omega),
              bytesIn_lt_nblocks f bs' cf hbs (by omega), Nat.sub_mul]
        · rw [if_neg htop]
          rw [bytesIn_lt_nblocks f bs' (min t br) hbs (by omega),
            bytesIn_lt_nblocks f bs' cf hbs (by omega), Nat.sub_mul]
      · constructor <;> first | exact hinv' | simp_all
    · rw [if_neg hb] at hinv' ⊢
      have hbr : br = cf := by omega
      subst hbr
      have hidx : (if t > br then br else t) = br := by split <;> omega
      have hnl : br ≠ nblocks f bs' := by
        rcases hok with hok | hok
        · intro he; exact hok ⟨rfl, he⟩
        · omega
      simp only [hidx, if_true, hfs, hnl, if_false, Nat.sub_self, Nat.zero_mul]
      refine ⟨trivial, ?_⟩
      constructor <;> simp_all
      omega
  · rw [if_neg hgt, if_neg (by omega)]
    rw [if_neg (by omega)] at hinv'
    refine ⟨rfl, ?_⟩
    constructor <;> simp_all

end Tftp

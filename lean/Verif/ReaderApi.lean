import Verif.MultiSim
import Verif.SingleSim
/-
The common interface of the three block readers (`BlockReader` trait, src/readers/block_reader.rs:3-20)
and the refinement of all of them to the sliding window specification.
-/
namespace Tftp
open Spec

/-- A reader behind the `BlockReader` trait: src/readers/block_reader.rs:3-20. -/
inductive Reader
  | single (s : SingleR)
  | multi (s : MultiR)
  | seek (s : SeekR)

/-- Which implementation is used: src/client/sender.rs:342-366 (`block_reader`),
src/server/connection_builder.rs:381-423. -/
inductive Kind
  | single
  | multi
  | seek
deriving DecidableEq, Repr

/-- Construction; the single block reader has no window parameter. -/
def Reader.new (k : Kind) (file : Bytes) (bs W : Nat) : Reader :=
  match k with
  | .single => .single (SingleR.new file bs)
  | .multi => .multi (MultiR.new file bs W)
  | .seek => .seek (SeekR.new file bs W)

/-- `BlockReader::next` through the trait. -/
def Reader.next (r : Reader) (retry fail : Bool) (cap : Nat) : Reader × NextOut :=
  match r with
  | .single s => let (s, o) := s.next retry fail cap; (.single s, o)
  | .multi s => let (s, o) := s.next retry fail cap; (.multi s, o)
  | .seek s => let (s, o) := s.next retry fail cap; (.seek s, o)

/-- `BlockReader::free_block` through the trait; `none`: integer underflow (see `SeekR.free`). -/
def Reader.free (r : Reader) (block : Nat) : Reader × Option Nat :=
  match r with
  | .single s => let (s, o) := s.free block; (.single s, some o)
  | .multi s => let (s, o) := s.free block; (.multi s, some o)
  | .seek s => let (s, o) := s.free block; (.seek s, o)

/-- `BlockReader::is_finished` through the trait. -/
def Reader.isFinished : Reader → Bool
  | .single s => s.isFinished
  | .multi s => s.isFinished
  | .seek s => s.isFinished

/-- The reader refines the window `w`; the block mapper state is `m`. -/
def ReaderSim (file : Bytes) (bs W : Nat) (m : Mapper) (r : Reader) (w : Window) : Prop :=
  match r with
  | .single s => W = 1 ∧ SingleSim file bs m s w
  | .multi s => MultiSim file bs W m s w
  | .seek s => SeekSim file bs W m s w

theorem ReaderSim.init (k : Kind) (file : Bytes) (bs W : Nat) (hk : k = .single → W = 1) :
    ReaderSim file bs W Mapper.new (Reader.new k file bs W) Window.init := by
  cases k with
  | single => exact ⟨hk rfl, SingleSim.init file bs⟩
  | multi => exact MultiSim.init file bs W
  | seek => exact SeekSim.init file bs W

theorem ReaderSim.inv {file bs W m r w} (h : ReaderSim file bs W m r w) :
    Window.Inv file bs W w := by
  cases r with
  | single s => obtain ⟨rfl, h⟩ := h; exact h.inv
  | multi s => exact MultiSim.inv h
  | seek s => exact SeekSim.inv h

theorem ReaderSim.finished {file bs W m r w} (h : ReaderSim file bs W m r w) :
    r.isFinished = decide (Window.finished file bs w) := by
  cases r with
  | single s => exact h.2.finished
  | multi s => exact MultiSim.finished h
  | seek s => exact SeekSim.finished h

theorem ReaderSim.next {file bs W m r w} (hbs : 0 < bs) (h : ReaderSim file bs W m r w)
    (retry fail : Bool) (cap : Nat) (hcap : bs ≤ cap) :
    (fail = true ∧ (r.next retry fail cap).2 = .ioErr ∧
      ReaderSim file bs W m (r.next retry fail cap).1 w) ∨
    ((r.next retry fail cap).2 = expect file bs (w.next file bs W retry).2 ∧
      ReaderSim file bs W m (r.next retry fail cap).1 (w.next file bs W retry).1) := by
  cases r with
  | single s =>
    obtain ⟨rfl, h⟩ := h
    rcases SingleSim.next hbs h retry fail cap hcap with ⟨h1, h2, h3⟩ | ⟨h1, h2⟩
    · exact Or.inl ⟨h1, h2, rfl, h3⟩
    · exact Or.inr ⟨h1, rfl, h2⟩
  | multi s => exact MultiSim.next hbs h retry fail cap hcap
  | seek s => exact SeekSim.next hbs h retry fail cap hcap

theorem ReaderSim.free {file bs W m r w} (hbs : 0 < bs) (h : ReaderSim file bs W m r w)
    (blk : Nat) (hok : (m.index blk).2 ≤ w.top) :
    (r.free blk).2 = some (w.ack file bs (m.index blk).2).2 ∧
      ReaderSim file bs W (m.index blk).1 (r.free blk).1 (w.ack file bs (m.index blk).2).1 := by
  cases r with
  | single s =>
    obtain ⟨rfl, h⟩ := h
    obtain ⟨h1, h2⟩ := SingleSim.free h blk hok
    exact ⟨congrArg some h1, rfl, h2⟩
  | multi s =>
    obtain ⟨h1, h2⟩ := MultiSim.free_step hbs h blk
    exact ⟨congrArg some h1, h2⟩
  | seek s =>
    have hok : ¬ Window.finished file bs w ∨ (m.index blk).2 ≤ w.base := by
      by_cases hf : Window.finished file bs w
      · right; rw [hf.1]; exact hok
      · exact Or.inl hf
    exact SeekSim.free hbs h blk hok

/-- For acknowledgements of any number, the reader refines the window moved to some place (or
panics on an underflow). -/
theorem ReaderSim.free_any {file bs W m r w} (hbs : 0 < bs) (h : ReaderSim file bs W m r w)
    (blk : Nat) :
    (r.free blk).2 = none ∨
    ∃ w', ReaderSim file bs W (m.index blk).1 (r.free blk).1 w' ∧ w'.top = w.top := by
  cases r with
  | single s =>
    right
    by_cases hok : (m.index blk).2 ≤ w.top
    · obtain ⟨-, h2⟩ := ReaderSim.free hbs h blk hok
      refine ⟨_, h2, ?_⟩
      simp only [Window.ack]; split <;> rfl
    · obtain ⟨rfl, h⟩ := h
      have e : s.free blk = ({ s with mapper := (m.index blk).1 }, 0) := by
        simp only [SingleR.free, h.mapper, h.top]
        rw [if_pos (by omega)]
      refine ⟨w, ?_, rfl⟩
      simp only [Reader.free, e]
      refine ⟨rfl, ?_⟩
      obtain ⟨e0, ec, e1, e2, e3, e4, e5, e6, e7, e8, e9⟩ := h
      constructor <;> first | assumption | rfl
  | multi s =>
    right
    obtain ⟨h1, h2⟩ := MultiSim.free_step hbs h blk
    refine ⟨_, h2, ?_⟩
    simp only [Window.ack]; split <;> rfl
  | seek s =>
    by_cases hok : ¬ Window.finished file bs w ∨ (m.index blk).2 ≤ w.base
    · right
      obtain ⟨-, h2⟩ := SeekSim.free hbs h blk hok
      refine ⟨_, h2, ?_⟩
      simp only [Window.ack]; split <;> rfl
    · left
      obtain ⟨hf, hgt⟩ : Window.finished file bs w ∧ w.base < (m.index blk).2 := by
        constructor
        · by_cases hf : Window.finished file bs w
          · exact hf
          · exact absurd (Or.inl hf) hok
        · by_cases hb : w.base < (m.index blk).2
          · exact hb
          · exact absurd (Or.inr (by omega)) hok
      obtain ⟨hf1, hf2⟩ := hf
      simp only [ReaderSim] at h
      simp only [Reader.free, SeekR.free, h.mapper, h.base, h.top, hf1, h.fin, hf2, h.bs_eq] at hgt ⊢
      rw [if_pos (by omega)]
      simp only [if_pos hgt, if_true]
      rw [if_neg]
      simp; omega

end Tftp

import Verif.Bytes
/-
C37: std-binary/src/blocking_reader.rs, the reader of a file which another thread is still writing.

The file only grows. A call of `read` has two visible actions: the read of the file and, unless the buffer was filled, the load of
the `finished` flag; between them the other thread may append and set the flag. The model is sequentially consistent (the code
loads the flag with `Relaxed`, which promises less).
-/
namespace Tftp

/-- `BlockingReader` (blocking_reader.rs:25-30), the file, its cursor, the flag; `pend`: the buffer of a call which has read the
file and not yet looked at the flag, and the size of the buffer. -/
structure Blk where
  file : Bytes
  fin : Bool
  pos : Nat
  temp : Bytes
  pend : Option (Bytes × Nat)

/-- A new reader (blocking_reader.rs:15-40). -/
def Blk.new (file : Bytes) : Blk := ⟨file, false, 0, [], none⟩

/-- Actions. Of the writing thread: `append`, `finish`. Of the reading thread: `read len k`, the first part of a `read` with a
buffer of `len` bytes, where the file gives at most `k` bytes; `readErr len`: the read of the file fails; `load`: the flag;
`seek`. -/
inductive BlkEv
  | append (b : Bytes)
  | finish
  | read (len k : Nat)
  | readErr (len : Nat)
  | load
  | seek (p : Nat)

inductive BlkRes | ok (b : Bytes) | wouldBlock | err

/-- blocking_reader.rs:44-83, 86-91. The result if the call returns. -/
def Blk.step (s : Blk) : BlkEv → Blk × Option BlkRes
  | .append b => ({ s with file := s.file ++ b }, none)
  | .finish => ({ s with fin := true }, none)
  | .seek p => match s.pend with
    | some _ => (s, none)
    | none => ({ s with temp := [], pos := p }, none)
  | .read len k => match s.pend with
    | some _ => (s, none)
    | none =>
      if len < s.temp.length then ({ s with temp := [] }, some .err)
      else
        let d := (s.file.drop s.pos).take (min k (len - s.temp.length))
        let buf := s.temp ++ d
        let s := { s with temp := [], pos := s.pos + d.length }
        if buf.length = len ∧ buf.length ≠ 0 then (s, some (.ok buf)) else ({ s with pend := some (buf, len) }, none)
  | .readErr _ => match s.pend with
    | some _ => (s, none)
    | none => ({ s with temp := [] }, some .err)
  | .load => match s.pend with
    | none => (s, none)
    | some (buf, _) =>
      if s.fin then ({ s with pend := none }, some (.ok buf)) else ({ s with temp := buf, pend := none }, some .wouldBlock)

/-- The results (oldest first) and the state after some actions. -/
def Blk.run (s : Blk) : List BlkEv → Blk × List BlkRes
  | [] => (s, [])
  | e :: es =>
    let (s', r) := s.step e
    let (s'', rs) := s'.run es
    (s'', r.toList ++ rs)

namespace Spec

/-- The bytes delivered by successful calls. -/
def delivered : List BlkRes → Bytes
  | [] => []
  | .ok b :: rs => b ++ delivered rs
  | _ :: rs => delivered rs

/-- What the writing thread appends. -/
def appended : List BlkEv → Bytes
  | [] => []
  | .append b :: es => b ++ appended es
  | _ :: es => appended es

/-- Actions of the writing thread. -/
def Writing : BlkEv → Prop
  | .append _ => True
  | .finish => True
  | _ => False

/-- The reading thread does not seek, its reads do not fail, and all its buffers have room for `len` bytes. -/
def Plain (len : Nat) : BlkEv → Prop
  | .seek _ => False
  | .readErr _ => False
  | .read l _ => l = len
  | _ => True

end Spec

theorem delivered_append (a b : List BlkRes) : Spec.delivered (a ++ b) = Spec.delivered a ++ Spec.delivered b := by
  induction a with
  | nil => rfl
  | cons r a ih => cases r <;> simp [Spec.delivered, ih]

/-- Where the bytes between `base` and the cursor are. -/
structure BlkInv (len base : Nat) (s : Blk) (out : Bytes) : Prop where
  bound : base ≤ s.pos ∧ (s.pos ≤ s.file.length ∨ s.pos = base)
  bytes : out ++ s.temp ++ (match s.pend with | some x => x.1 | none => []) = (s.file.drop base).take (s.pos - base)
  fits : s.temp.length ≤ len
  room : ∀ x, s.pend = some x → s.temp = [] ∧ x.1.length ≤ len ∧ x.2 = len

theorem blk_step {len base : Nat} {s : Blk} {out : Bytes} (h : BlkInv len base s out) (e : BlkEv) (he : Spec.Plain len e) :
    BlkInv len base (s.step e).1 (out ++ Spec.delivered (s.step e).2.toList) := by
  obtain ⟨⟨h0, h1⟩, h2, h3, h4⟩ := h
  cases e with
  | append b =>
    refine ⟨⟨h0, by simp [Blk.step]; omega⟩, ?_, h3, h4⟩
    simp only [Blk.step, Option.toList, Spec.delivered, List.append_nil]
    rw [h2]
    rcases h1 with h1 | h1
    · rw [List.drop_append_of_le_length (by omega), List.take_append_of_le_length (by simp; omega)]
    · simp [h1]
  | finish => exact ⟨⟨h0, h1⟩, by simpa [Blk.step, Spec.delivered] using h2, h3, h4⟩
  | seek p => cases he
  | readErr l => cases he
  | load =>
    cases hp : s.pend with
    | none =>
      have e : s.step .load = (s, none) := by simp only [Blk.step, hp]
      rw [e]
      exact ⟨⟨h0, h1⟩, by simpa [Spec.delivered] using h2, h3, h4⟩
    | some x =>
      obtain ⟨buf, l⟩ := x
      obtain ⟨r1, r2, r3⟩ := h4 _ hp
      rw [hp] at h2
      simp only [Blk.step, hp]
      split
      · refine ⟨⟨h0, h1⟩, ?_, h3, fun x hx => by cases hx⟩
        simp only [Option.toList, Spec.delivered, List.append_nil]
        rw [← h2, r1]
        simp
      · refine ⟨⟨h0, h1⟩, ?_, r2, fun x hx => by cases hx⟩
        simp only [Option.toList, Spec.delivered, List.append_nil]
        rw [← h2, r1]
        simp
  | read l k =>
    have hl : l = len := he
    subst hl
    cases hp : s.pend with
    | some x =>
      have e : s.step (.read l k) = (s, none) := by simp only [Blk.step, hp]
      rw [e]
      exact ⟨⟨h0, h1⟩, by simpa [Spec.delivered, hp] using h2, h3, h4⟩
    | none =>
      rw [hp] at h2
      simp only [List.append_nil] at h2
      simp only [Blk.step, hp]
      rw [if_neg (by omega)]
      have hb : base ≤ s.pos + ((s.file.drop s.pos).take (min k (l - s.temp.length))).length ∧
          (s.pos + ((s.file.drop s.pos).take (min k (l - s.temp.length))).length ≤ s.file.length ∨
           s.pos + ((s.file.drop s.pos).take (min k (l - s.temp.length))).length = base) := by simp; omega
      have hlen : (s.temp ++ (s.file.drop s.pos).take (min k (l - s.temp.length))).length ≤ l := by simp; omega
      have hcat : ∀ m, (s.file.drop base).take (s.pos + ((s.file.drop s.pos).take m).length - base) =
          (s.file.drop base).take (s.pos - base) ++ (s.file.drop s.pos).take m := by
        intro m
        rw [show s.pos + ((s.file.drop s.pos).take m).length - base = (s.pos - base) + ((s.file.drop s.pos).take m).length by omega,
          List.take_add, List.drop_drop, show base + (s.pos - base) = s.pos by omega]
        congr 1
        rw [List.length_take]
        by_cases hm : m ≤ (s.file.drop s.pos).length
        · rw [Nat.min_eq_left hm]
        · rw [Nat.min_eq_right (by omega), List.take_of_length_le (by omega), List.take_of_length_le (by omega)]
      split
      · refine ⟨hb, ?_, by simp, fun x hx => by cases hx⟩
        simp only [Option.toList, Spec.delivered, List.append_nil]
        rw [hcat, ← h2]
        simp
      · refine ⟨hb, ?_, by simp, fun x hx => ?_⟩
        · simp only [Option.toList, Spec.delivered, List.append_nil]
          rw [hcat, ← h2]
          simp
        · cases hx
          exact ⟨rfl, hlen, rfl⟩

theorem blk_run {len base : Nat} {s : Blk} {out : Bytes} (h : BlkInv len base s out) (es : List BlkEv) (he : ∀ e ∈ es, Spec.Plain len e) :
    BlkInv len base (s.run es).1 (out ++ Spec.delivered (s.run es).2) := by
  induction es generalizing s out with
  | nil => simpa [Blk.run, Spec.delivered] using h
  | cons e es ih =>
    have := ih (blk_step h e (he e List.mem_cons_self)) (fun x hx => he x (List.mem_cons_of_mem _ hx))
    simp only [Blk.run, delivered_append]
    rwa [← List.append_assoc]

theorem blk_file (s : Blk) (es : List BlkEv) : (s.run es).1.file = s.file ++ Spec.appended es := by
  induction es generalizing s with
  | nil => simp [Blk.run, Spec.appended]
  | cons e es ih =>
    simp only [Blk.run, ih]
    cases e <;> simp only [Blk.step, Spec.appended] <;> (repeat' split) <;> simp

theorem new_inv (len : Nat) (file : Bytes) : BlkInv len 0 (Blk.new file) [] :=
  ⟨⟨Nat.zero_le _, .inr rfl⟩, by simp [Blk.new], by simp [Blk.new], fun x hx => by cases hx⟩

theorem BlkInv.prefix {len base : Nat} {s : Blk} {out : Bytes} (h : BlkInv len base s out) : ∃ rest, s.file.drop base = out ++ rest := by
  refine ⟨s.temp ++ (match s.pend with | some x => x.1 | none => []) ++ (s.file.drop base).drop (s.pos - base), ?_⟩
  have hb := h.bytes
  rw [List.append_assoc] at hb
  rw [← List.append_assoc, hb, List.take_append_drop]

/-- **C37**: nothing is lost, duplicated or reordered: however reads, appends and the flag interleave, and however little each read
of the file gives, the bytes delivered are a beginning of the file (which consists of its first content and what was appended). -/
theorem c37_prefix (len : Nat) (file : Bytes) (es : List BlkEv) (he : ∀ e ∈ es, Spec.Plain len e) :
    ∃ rest, file ++ Spec.appended es = Spec.delivered ((Blk.new file).run es).2 ++ rest := by
  have h := (blk_run (new_inv len file) es he).prefix
  rw [blk_file] at h
  exact h

theorem blk_run_append (s : Blk) (a b : List BlkEv) : s.run (a ++ b) = (((s.run a).1.run b).1, (s.run a).2 ++ ((s.run a).1.run b).2) := by
  induction a generalizing s with
  | nil => rfl
  | cons e a ih => simp only [List.cons_append, Blk.run, ih]; simp

/-- **C37**: the same after a seek to `p` (between two calls), whatever happened before: what is delivered from then on is a
beginning of the file from `p`. -/
theorem c37_prefix_after_seek (len : Nat) (s : Blk) (hs : s.pend = none) (p : Nat) (es : List BlkEv) (he : ∀ e ∈ es, Spec.Plain len e) :
    ∃ rest, (s.file ++ Spec.appended es).drop p = Spec.delivered (s.run (.seek p :: es)).2 ++ rest := by
  have h0 : BlkInv len p (s.step (.seek p)).1 [] := by
    simp only [Blk.step, hs]
    exact ⟨⟨Nat.le_refl _, .inr rfl⟩, by simp, by simp, fun x hx => by cases hx⟩
  have h := (blk_run h0 es he).prefix
  rw [blk_file] at h
  have hf : (s.step (.seek p)).1.file = s.file := by simp only [Blk.step, hs]
  have hr : (s.step (.seek p)).2 = none := by simp only [Blk.step, hs]
  rw [hf] at h
  simpa [Blk.run, hr] using h

/-- **C37**: before the flag is set only full blocks are delivered. -/
theorem c37_full_blocks (file : Bytes) (len : Nat) (es : List BlkEv) (he : ∀ e ∈ es, Spec.Plain len e) (hf : BlkEv.finish ∉ es)
    (b : Bytes) (hb : BlkRes.ok b ∈ ((Blk.new file).run es).2) : b.length = len := by
  have key : ∀ es : List BlkEv, (∀ e ∈ es, Spec.Plain len e) → BlkEv.finish ∉ es → ∀ (s : Blk) (out : Bytes), BlkInv len 0 s out →
      s.fin = false → BlkRes.ok b ∈ (s.run es).2 → b.length = len := by
    intro es
    induction es with
    | nil => intro _ _ s out _ _ hb; cases hb
    | cons e es ih =>
      intro he hf s out hs hfin hb
      simp only [Blk.run, List.mem_append] at hb
      have hne : e ≠ .finish := fun h => hf (h ▸ List.mem_cons_self)
      have hfin' : (s.step e).1.fin = false := by
        cases e <;> simp only [Blk.step] <;> (repeat' split) <;> first | exact hfin | exact absurd rfl hne
      rcases hb with hb | hb
      · have hpl := he e List.mem_cons_self
        cases e with
        | append _ => cases hb
        | finish => exact absurd rfl hne
        | seek _ => cases hpl
        | readErr _ => cases hpl
        | load =>
          simp only [Blk.step] at hb
          split at hb
          · cases hb
          · simp [hfin] at hb
        | read l k =>
          cases hpl
          simp only [Blk.step] at hb
          split at hb
          · cases hb
          · split at hb
            · simp at hb
            · split at hb
              · rename_i hl
                simp only [Option.toList, List.mem_singleton, BlkRes.ok.injEq] at hb
                rw [hb]
                exact hl.1
              · cases hb
      · exact ih (fun x hx => he x (List.mem_cons_of_mem _ hx)) (fun h => hf (List.mem_cons_of_mem _ h)) _ _
          (blk_step hs e (he e List.mem_cons_self)) hfin' hb
  exact key es he hf _ _ (new_inv len file) rfl hb

/-! ### After the flag is set -/

/-- A call of `read` with a buffer of `len` bytes during which the other thread does nothing and the file gives what it has. -/
def Spec.call (len : Nat) : List BlkEv := [.read len len, .load]

def Spec.calls (len : Nat) : Nat → List BlkEv
  | 0 => []
  | n + 1 => Spec.call len ++ Spec.calls len n

theorem fin_stays (s : Blk) (h : s.fin = true) (es : List BlkEv) : (s.run es).1.fin = true := by
  induction es generalizing s with
  | nil => exact h
  | cons e es ih =>
    simp only [Blk.run]
    apply ih
    cases e <;> simp only [Blk.step] <;> (repeat' split) <;> first | exact h | rfl

theorem finish_sets (s : Blk) (es : List BlkEv) (h : BlkEv.finish ∈ es) : (s.run es).1.fin = true := by
  induction es generalizing s with
  | nil => cases h
  | cons e es ih =>
    simp only [Blk.run]
    rcases List.mem_cons.mp h with rfl | h
    · exact fin_stays _ rfl es
    · exact ih _ h

/-- A call in a state in which the flag is set returns what is left, at most `len` bytes. -/
theorem blk_call {len base : Nat} {s : Blk} {out : Bytes} (h : BlkInv len base s out) (hp : s.pend = none) (hf : s.fin = true) :
    (s.run (Spec.call len)).2 = [.ok (((s.file.drop base).drop out.length).take len)] ∧ (s.run (Spec.call len)).1.pend = none ∧
    (s.run (Spec.call len)).1.fin = true := by
  obtain ⟨⟨h0, h1⟩, h2, h3, h4⟩ := h
  rw [hp] at h2
  simp only [List.append_nil] at h2
  have e : (s.file.drop base).drop out.length = s.temp ++ s.file.drop s.pos := by
    have : s.file.drop base = out ++ (s.temp ++ s.file.drop s.pos) := by
      have h5 := List.take_append_drop (s.pos - base) (s.file.drop base)
      rw [← h2, List.drop_drop, show base + (s.pos - base) = s.pos by omega] at h5
      rw [← h5]
      simp
    rw [this]
    simp
  have e2 : s.temp ++ (s.file.drop s.pos).take (min len (len - s.temp.length)) = ((s.file.drop base).drop out.length).take len := by
    rw [e, Nat.min_eq_right (by omega), List.take_append, List.take_of_length_le h3]
  simp only [Spec.call, Blk.run, Blk.step, hp]
  rw [if_neg (by omega), e2]
  split
  · exact ⟨rfl, rfl, hf⟩
  · simp only [Option.toList, hf]
    exact ⟨rfl, trivial, trivial⟩

theorem call_plain (len : Nat) : ∀ e ∈ Spec.call len, Spec.Plain len e := by
  intro e he
  simp only [Spec.call, List.mem_cons, List.not_mem_nil, or_false] at he
  rcases he with rfl | rfl
  · exact rfl
  · trivial

theorem call_appended (len n : Nat) : Spec.appended (Spec.calls len n) = [] := by
  induction n with
  | zero => rfl
  | succ n ih => simp [Spec.calls, Spec.call, Spec.appended, ih]

/-- **C37**: once the flag is set, further calls deliver all the rest: after any history (in which the flag was set, and which is
not in the middle of a call), `n` calls deliver the next `n * len` bytes of the file, as far as there are any; no call blocks. -/
theorem c37_drains (len : Nat) (file : Bytes) (es : List BlkEv) (he : ∀ e ∈ es, Spec.Plain len e)
    (hp : ((Blk.new file).run es).1.pend = none) (hf : BlkEv.finish ∈ es) (n : Nat) :
    Spec.delivered ((Blk.new file).run (es ++ Spec.calls len n)).2 =
      (file ++ Spec.appended es).take ((Spec.delivered ((Blk.new file).run es).2).length + n * len) ∧
    ((((Blk.new file).run es).1.run (Spec.calls len n)).2.length = n ∧
      ∀ r ∈ (((Blk.new file).run es).1.run (Spec.calls len n)).2, ∃ b, r = .ok b) := by
  have hinv := blk_run (new_inv len file) es he
  have hfin := finish_sets (Blk.new file) es hf
  have hfile := blk_file (Blk.new file) es
  have hdel : Spec.delivered ((Blk.new file).run es).2 =
      (file ++ Spec.appended es).take (Spec.delivered ((Blk.new file).run es).2).length := by
    obtain ⟨rest, hr⟩ := c37_prefix len file es he
    rw [hr]
    simp
  rw [blk_run_append, delivered_append]
  rw [List.nil_append] at hinv
  change _ = file ++ _ at hfile
  generalize ((Blk.new file).run es).1 = s at *
  generalize Spec.delivered ((Blk.new file).run es).2 = out at *
  rw [← hfile] at hdel ⊢
  clear hfile
  induction n generalizing s out with
  | zero => simp [Spec.calls, Blk.run, Spec.delivered]; exact hdel
  | succ n ih =>
    obtain ⟨c1, c2, c3⟩ := blk_call hinv hp hfin
    have hinv' := blk_run hinv (Spec.call len) (call_plain len)
    have hfile' : (s.run (Spec.call len)).1.file = s.file := by rw [blk_file]; simp [Spec.call, Spec.appended]
    simp only [Spec.calls, blk_run_append]
    rw [c1] at hinv' ⊢
    simp only [List.drop_zero, Spec.delivered, List.append_nil] at hinv' ⊢
    have hout : out ++ (s.file.drop out.length).take len = s.file.take (out.length + len) := by
      conv => lhs; lhs; rw [hdel]
      rw [List.take_add]
    have := ih _ c2 c3 (out ++ (s.file.drop out.length).take len) (by
      rw [hfile', hout, List.take_eq_take_iff]
      simp) hinv'
    obtain ⟨t1, t2, t3⟩ := this
    refine ⟨?_, by simp [t2], ?_⟩
    · rw [List.singleton_append, Spec.delivered, ← List.append_assoc, t1, hfile', hout, List.take_eq_take_iff]
      simp only [List.length_take, Nat.add_mul, Nat.one_mul]
      omega
    · intro r hr
      simp only [List.singleton_append, List.mem_cons] at hr
      rcases hr with rfl | hr
      · exact ⟨_, rfl⟩
      · exact t3 r hr

/-- **C49** (partial): a block shorter than the buffer is the end of the file, if the flag was already set when the call began (and the
file gave what it had). Missing: the flag may be set during the call, see `c49_finish_race`. -/
theorem c49_short_is_last_partial (len : Nat) (file : Bytes) (es : List BlkEv) (he : ∀ e ∈ es, Spec.Plain len e)
    (hp : ((Blk.new file).run es).1.pend = none) (hf : BlkEv.finish ∈ es) :
    ∃ b, (((Blk.new file).run es).1.run (Spec.call len)).2 = [.ok b] ∧ b.length ≤ len ∧
      (b.length < len → Spec.delivered ((Blk.new file).run (es ++ Spec.call len)).2 = file ++ Spec.appended es) := by
  have hinv := blk_run (new_inv len file) es he
  have hfin := finish_sets (Blk.new file) es hf
  rw [List.nil_append] at hinv
  obtain ⟨c1, -, -⟩ := blk_call hinv hp hfin
  refine ⟨_, c1, by simp; omega, fun hs => ?_⟩
  have hd := (c37_drains len file es he hp hf 1).1
  simp only [Spec.calls, List.append_nil] at hd
  rw [hd]
  apply List.take_of_length_le
  rw [blk_file] at hs
  change (((file ++ _).drop 0).drop _ |>.take len).length < len at hs
  simp only [List.drop_zero, List.length_take, List.length_drop] at hs
  omega

/-- **C49**, finding: the writer may append and set the flag between the read of the file and the load of the flag
(blocking_reader.rs:46-76). The call then returns a short block (here 1 of 4 bytes), which ends the transfer, although the file
has more bytes. -/
theorem c49_finish_race : ∃ es, (∀ e ∈ es, Spec.Plain 4 e) ∧ ((Blk.new [1]).run es).1.pend = none ∧
    ((Blk.new [1]).run es).2 = [.ok [1]] ∧ [1] ++ Spec.appended es = [1, 2, 3] :=
  ⟨[.read 4 4, .append [2, 3], .finish, .load], by
    intro e he
    simp only [List.mem_cons, List.not_mem_nil, or_false] at he
    rcases he with rfl | rfl | rfl | rfl <;> first | rfl | trivial, rfl, rfl, rfl⟩

theorem mid_quiet (mid : List BlkEv) (hm : ∀ e ∈ mid, Spec.Writing e) (s : Blk) : (s.run mid).2 = [] ∧ (s.run mid).1.pend = s.pend := by
  induction mid generalizing s with
  | nil => exact ⟨rfl, rfl⟩
  | cons e mid ih =>
    have hw := hm e List.mem_cons_self
    have h0 : (s.step e).2 = none ∧ (s.step e).1.pend = s.pend := by cases e <;> first | exact ⟨rfl, rfl⟩ | cases hw
    obtain ⟨i1, i2⟩ := ih (fun x hx => hm x (List.mem_cons_of_mem _ hx)) (s.step e).1
    simp only [Blk.run, h0.1, i1, i2, h0.2]
    exact ⟨rfl, trivial⟩

/-- **C49**: the race is the only way: if the flag is set during a call, the block returned is what the file contained when it was
read. (The other thread's actions `mid` happen between the two parts of the call.) -/
theorem c49_race_window (len : Nat) (file : Bytes) (es : List BlkEv) (he : ∀ e ∈ es, Spec.Plain len e)
    (hp : ((Blk.new file).run es).1.pend = none) (mid : List BlkEv) (hm : ∀ e ∈ mid, Spec.Writing e) (b : Bytes)
    (hb : BlkRes.ok b ∈ (((Blk.new file).run es).1.run (.read len len :: mid ++ [.load])).2) (hs : b.length < len) :
    Spec.delivered ((Blk.new file).run es).2 ++ b = file ++ Spec.appended es := by
  have hinv := blk_run (new_inv len file) es he
  have hfile := blk_file (Blk.new file) es
  rw [List.nil_append] at hinv
  change _ = file ++ _ at hfile
  rw [← hfile]
  generalize ((Blk.new file).run es).1 = s at *
  generalize Spec.delivered ((Blk.new file).run es).2 = out at *
  obtain ⟨-, h2, h3, -⟩ := hinv
  rw [hp] at h2
  simp only [List.append_nil, List.drop_zero, Nat.sub_zero] at h2
  obtain ⟨hm1, hm2⟩ := mid_quiet mid hm (s.step (.read len len)).1
  have hb : BlkRes.ok b ∈ (s.step (.read len len)).2.toList ++ (((s.step (.read len len)).1.run mid).1.step .load).2.toList := by
    rw [List.cons_append] at hb
    simp only [Blk.run, blk_run_append, hm1] at hb
    simpa using hb
  have e2 : s.file = out ++ (s.temp ++ s.file.drop s.pos) := by
    have h5 := List.take_append_drop s.pos s.file
    rw [← h2] at h5
    rw [← List.append_assoc, h5]
  have e3 : s.temp ++ (s.file.drop s.pos).take (min len (len - s.temp.length)) = (s.temp ++ s.file.drop s.pos).take len := by
    rw [Nat.min_eq_right (by omega), List.take_append, List.take_of_length_le h3]
  have hfull : ∀ c : Bytes, c = (s.temp ++ s.file.drop s.pos).take len → c.length < len → out ++ c = s.file := by
    intro c hc hlt
    rw [hc, List.length_take] at hlt
    rw [hc, List.take_of_length_le (by omega), ← e2]
  simp only [Blk.step, hp] at hb hm2
  rw [if_neg (by omega), e3] at hb hm2
  split at hb
  · rename_i hfulllen
    rw [if_pos hfulllen] at hm2
    simp only [Option.toList, List.append_nil, hm2, List.mem_singleton, BlkRes.ok.injEq] at hb
    rw [hb] at hs
    omega
  · rename_i hnf
    rw [if_neg hnf] at hm2
    simp only [Option.toList_none, List.nil_append, hm2] at hb
    split at hb
    · simp only [Option.toList_some, List.mem_singleton, BlkRes.ok.injEq] at hb
      exact hfull b hb hs
    · simp at hb

/-- **C37**, finding: if the read of the file fails (for example `Interrupted`) while the reader holds bytes back, they are lost:
blocking_reader.rs:51 clears them first. The file is 1, 2, 3, 4, 5; the bytes delivered are 4, 5. -/
theorem c37_error_loses_bytes : ((Blk.new [1, 2, 3]).run [.read 4 4, .load, .readErr 4, .append [4, 5], .finish, .read 4 4, .load]).2 =
    [.wouldBlock, .err, .ok [4, 5]] := rfl

/-- The hypotheses of `c37_drains`, `c37_prefix`, `c49_short_is_last_partial` are met: a file of five bytes written in three parts. -/
example : let es := [BlkEv.read 2 2, .load, .append [1], .read 2 1, .load, .append [2, 3, 4], .read 2 2, .load, .read 2 2, .append [5],
      .finish]
    (∀ e ∈ es, Spec.Plain 2 e) ∧ ((Blk.new []).run es).1.pend = none ∧ BlkEv.finish ∈ es ∧
    ((Blk.new []).run es).2 = [.wouldBlock, .wouldBlock, .ok [1, 2], .ok [3, 4]] ∧
    ((Blk.new []).run (es ++ Spec.calls 2 2)).2 = [.wouldBlock, .wouldBlock, .ok [1, 2], .ok [3, 4], .ok [5], .ok []] := by
  refine ⟨?_, rfl, by simp, rfl, rfl⟩
  intro e he
  simp only [List.mem_cons, List.not_mem_nil, or_false] at he
  rcases he with rfl | rfl | rfl | rfl | rfl | rfl | rfl | rfl | rfl | rfl | rfl <;> first | rfl | trivial

end Tftp

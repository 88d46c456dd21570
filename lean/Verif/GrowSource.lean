import Verif.SealedUp
import Verif.Blocking
/-
C72, C73: uploads of a file which is still being written (`sync --start-on-create`: std-binary/src/sync.rs:54-81): the reader given to `send_file` is a
`BlockingReader`, or a `StreamReader` over a `BlockingReader`. The two as sources in the sense of Sources.lean.
-/
namespace Tftp
open Spec

/-! ### BlockingReader -/

/-- The reader, and what the writing thread has still to do. -/
structure Grow where
  blk : Blk
  todo : List BlkEv

/-- The writing thread performs its next `n` actions. -/
def Grow.write (g : Grow) (n : Nat) : Grow := ⟨(g.blk.run (g.todo.take n)).1, g.todo.drop n⟩

/-- std-binary/src/blocking_reader.rs:44-83: the first part of `read`, up to the load of the flag. The file fills the buffer if it has enough bytes. -/
def Grow.fetch (g : Grow) (n : Nat) : Grow × Option BlkRes :=
  let (b, r) := g.blk.step (.read n n)
  (⟨b, g.todo⟩, r)

/-- std-binary/src/blocking_reader.rs:61-77: the load of the flag. -/
def Grow.load (g : Grow) : Grow × Option BlkRes :=
  let (b, r) := g.blk.step .load
  (⟨b, g.todo⟩, r)

/-- `BlockingReader` over a regular file (std-binary/src/blocking_reader.rs:25-91). `x.1`: how many actions the writing thread performs before the file is
read (since the previous call), `x.2`: how many between this and the load of the flag. -/
def growing : Source Grow (Nat × Nat) where
  read g n x :=
    let (g, r) := (g.write x.1).fetch n
    match r with
    | some (.ok d) => (g, some d)
    | some _ => (g, none)
    | none =>
      let (g, r) := (g.write x.2).load
      match r with
      | some (.ok d) => (g, some d)
      | _ => (g, none)
  tell g := ({ g with blk := { g.blk with temp := [] } }, some g.blk.pos)
  seek g p := ({ g with blk := (g.blk.step (.seek p)).1 }, true)

namespace Spec

/-- What a writing thread does: it appends, and when it has set the flag it appends no more. -/
def Scribe (fin : Bool) : List BlkEv → Prop
  | [] => True
  | .append b :: es => (fin = false ∨ b = []) ∧ Scribe fin es
  | .finish :: es => Scribe true es
  | _ :: _ => False

/-- The flag is set in these actions. -/
def finishes (es : List BlkEv) : Bool := es.any fun | .finish => true | _ => false

/-- The race of C49 does not occur: the writer does not append *and* set the flag between the moment when the file is read and the moment when the flag is
looked at. -/
def NoRace (g : Grow) (x : Nat × Nat) : Prop :=
  let mid := (g.todo.drop x.1).take x.2
  finishes mid = true → appended mid = []

end Spec

theorem appended_append (a b : List BlkEv) : appended (a ++ b) = appended a ++ appended b := by
  induction a with
  | nil => rfl
  | cons e a ih => cases e <;> simp [appended, ih]

theorem finishes_append (a b : List BlkEv) : finishes (a ++ b) = (finishes a || finishes b) := by
  simp only [finishes, List.any_append]

theorem scribe_fin {es : List BlkEv} (h : Scribe true es) : appended es = [] := by
  induction es with
  | nil => rfl
  | cons e es ih =>
    cases e with
    | append b =>
      simp only [Scribe, Bool.true_eq_false, false_or] at h
      simp only [appended, h.1, ih h.2, List.append_nil]
    | finish => exact ih h
    | _ => exact h.elim

theorem scribe_append {fin : Bool} {a b : List BlkEv} (h : Scribe fin (a ++ b)) : Scribe fin a ∧ Scribe (fin || finishes a) b := by
  induction a generalizing fin with
  | nil => exact ⟨trivial, by simpa [finishes] using h⟩
  | cons e a ih =>
    cases e with
    | append c =>
      simp only [List.cons_append, Scribe] at h
      obtain ⟨h1, h2⟩ := ih h.2
      exact ⟨⟨h.1, h1⟩, by simpa [finishes] using h2⟩
    | finish =>
      simp only [List.cons_append, Scribe] at h
      obtain ⟨h1, h2⟩ := ih h
      exact ⟨h1, by simpa [finishes] using h2⟩
    | read l k => exact h.elim
    | readErr l => exact h.elim
    | load => exact h.elim
    | seek p => exact h.elim

/-- The writing thread changes only the file and the flag. -/
theorem run_writes {fin : Bool} {es : List BlkEv} (h : Scribe fin es) (s : Blk) :
    (s.run es).1 = { s with file := s.file ++ appended es, fin := s.fin || finishes es } := by
  induction es generalizing s fin with
  | nil => simp [Blk.run, appended, finishes]
  | cons e es ih =>
    cases e with
    | append c =>
      simp only [Scribe] at h
      simp only [Blk.run, Blk.step, ih h.2, appended, finishes, List.append_assoc, List.any_cons, Bool.false_or]
    | finish =>
      simp only [Scribe] at h
      simp only [Blk.run, Blk.step, ih h, appended, finishes, List.any_cons, Bool.true_or, Bool.or_true]
    | read l k => exact h.elim
    | readErr l => exact h.elim
    | load => exact h.elim
    | seek p => exact h.elim

/-- The flag is set when a call of `read`, in which the writing thread performs `x.1 + x.2` actions, returns. -/
def Grow.complete (g : Grow) (x : Nat × Nat) : Bool := g.blk.fin || finishes (g.todo.take (x.1 + x.2))

/-- The number of bytes which are there and have not been delivered. -/
def Grow.unread (g : Grow) : Nat := g.blk.temp.length + (g.blk.file.length - g.blk.pos)

theorem complete_write {g : Grow} (h : Scribe g.blk.fin g.todo) (x : Nat × Nat) :
    g.complete x = ((g.write x.1).blk.fin || finishes ((g.write x.1).todo.take x.2)) := by
  rw [← List.take_append_drop x.1 g.todo] at h
  simp only [Grow.write, run_writes (scribe_append h).1, Grow.complete, List.take_add, finishes_append, Bool.or_assoc]

/-- The file is, or will be, `F`; the next byte to be delivered is at `p`, and a read with a buffer of `n` bytes is possible. -/
structure GrowAt (F : Bytes) (p n : Nat) (g : Grow) : Prop where
  pend : g.blk.pend = none
  scribe : Scribe g.blk.fin g.todo
  file : F = g.blk.file ++ appended g.todo
  pos : g.blk.pos = p + g.blk.temp.length ∧ g.blk.pos ≤ g.blk.file.length
  temp : g.blk.temp = (F.drop p).take g.blk.temp.length
  room : g.blk.temp.length < n

theorem GrowAt.write {F : Bytes} {p n : Nat} {g : Grow} (h : GrowAt F p n g) (k : Nat) : GrowAt F p n (g.write k) := by
  have hh := h.scribe
  rw [← List.take_append_drop k g.todo] at hh
  obtain ⟨h1, h2⟩ := scribe_append hh
  have e := run_writes h1 g.blk
  refine ⟨?_, ?_, ?_, ?_, ?_, ?_⟩
  · simp only [Grow.write, e]; exact h.pend
  · simp only [Grow.write, e]; exact h2
  · simp only [Grow.write, e, List.append_assoc, ← appended_append, List.take_append_drop]
    exact h.file
  · have := h.pos
    simp only [Grow.write, e, List.length_append]; omega
  · simp only [Grow.write, e]; exact h.temp
  · simp only [Grow.write, e]; exact h.room

theorem growing_step {F : Bytes} {p n : Nat} {g : Grow} (h : GrowAt F p n g) (x : Nat × Nat) (hr : NoRace g x) :
    ((growing.read g n x).2 = none ∧ GrowAt F p n (growing.read g n x).1 ∧ g.complete x = false ∧ (g.write x.1).unread < n) ∨
    ((growing.read g n x).2 = some ((F.drop p).take n) ∧ ∀ m, 0 < m → GrowAt F (p + ((F.drop p).take n).length) m (growing.read g n x).1) := by
  have hc := complete_write h.scribe x
  have h1 := h.write x.1
  have hm : appended ((g.write x.1).todo.take x.2) = [] ∨ finishes ((g.write x.1).todo.take x.2) = false := by
    cases hf : finishes ((g.write x.1).todo.take x.2) with
    | false => exact .inr rfl
    | true => exact .inl (hr hf)
  generalize hg : g.write x.1 = g1 at h1 hm hc
  have hd : (g1.blk.file.drop g1.blk.pos).take (min n (n - g1.blk.temp.length)) = ((F.drop p).take n).drop g1.blk.temp.length ∨
      (g1.blk.file.drop g1.blk.pos).length < n - g1.blk.temp.length := by
    by_cases hl : (g1.blk.file.drop g1.blk.pos).length < n - g1.blk.temp.length
    · exact .inr hl
    · refine .inl ?_
      have hp := h1.pos
      rw [h1.file, List.drop_take, List.drop_drop, ← hp.1, List.drop_append_of_le_length hp.2, List.take_append_of_le_length (by omega), Nat.min_eq_right (by omega)]
  have hbuf : ∀ d, d = ((F.drop p).take n).drop g1.blk.temp.length → g1.blk.temp ++ d = (F.drop p).take n := by
    intro d hd
    have ht := h1.temp
    have hr := h1.room
    rw [hd]
    have : g1.blk.temp = ((F.drop p).take n).take g1.blk.temp.length := by
      rw [List.take_take, Nat.min_eq_left (by omega)]
      exact ht
    conv => lhs; lhs; rw [this]
    exact List.take_append_drop _ _
  have hpend := h1.pend
  have hroom := h1.room
  have hpos := h1.pos
  have hsc := h1.scribe
  obtain ⟨⟨file, fin, pos, temp, pend⟩, todo⟩ := g1
  simp only at hm hd hbuf hpend hroom hpos hsc hc
  subst hpend
  have htemp := h1.temp
  have hF := h1.file
  simp only at htemp hF
  have hlen : ((file.drop pos).take (min n (n - temp.length))).length = min (n - temp.length) (file.length - pos) := by
    rw [List.length_take, List.length_drop]; omega
  have hfetch : (⟨⟨file, fin, pos, temp, none⟩, todo⟩ : Grow).fetch n =
      if file.length - pos ≥ n - temp.length then
        (⟨⟨file, fin, p + n, [], none⟩, todo⟩, some (.ok ((F.drop p).take n)))
      else (⟨⟨file, fin, file.length, [], some (file.drop p, n)⟩, todo⟩, none) := by
    simp only [Grow.fetch, Blk.step, if_neg (show ¬ n < temp.length by omega), List.length_append, hlen]
    by_cases hs : file.length - pos ≥ n - temp.length
    · rw [if_pos hs]
      rcases hd with hd | hd
      · rw [if_pos (by omega), hbuf _ hd]
        simp only [Prod.mk.injEq, Grow.mk.injEq, Blk.mk.injEq, and_true, true_and]
        omega
      · rw [List.length_drop] at hd; omega
    · rw [if_neg hs, if_neg (by omega)]
      have e1 : (file.drop pos).take (min n (n - temp.length)) = file.drop pos := List.take_of_length_le (by rw [List.length_drop]; omega)
      have e2 : temp ++ file.drop pos = file.drop p := by
        have : temp = (file.drop p).take temp.length := by
          conv => lhs; rw [htemp, hF]
          rw [List.drop_append_of_le_length (by omega), List.take_append_of_le_length (by rw [List.length_drop]; omega)]
        conv => lhs; lhs; rw [this]
        rw [hpos.1, ← List.drop_drop]
        exact List.take_append_drop _ _
      rw [e1, e2]
      simp only [Prod.mk.injEq, Grow.mk.injEq, Blk.mk.injEq, and_true, true_and]
      omega
  by_cases hs : file.length - pos ≥ n - temp.length
  · rw [if_pos hs] at hfetch
    have e : growing.read g n x = (⟨⟨file, fin, p + n, [], none⟩, todo⟩, some ((F.drop p).take n)) := by
      simp only [growing, hg, hfetch]
    refine .inr ⟨by rw [e], fun m hm => ?_⟩
    have hl : ((F.drop p).take n).length = n := by
      rw [List.length_take, List.length_drop, hF, List.length_append]; omega
    rw [e, hl]
    exact ⟨rfl, hsc, hF, by simp only [List.length_nil]; omega, by simp, hm⟩
  · rw [if_neg hs] at hfetch
    rw [← List.take_append_drop x.2 todo] at hsc
    obtain ⟨s1, s2⟩ := scribe_append hsc
    have e : growing.read g n x =
        if fin || finishes (todo.take x.2) then
          (⟨⟨file ++ appended (todo.take x.2), fin || finishes (todo.take x.2), file.length, [], none⟩, todo.drop x.2⟩, some (file.drop p))
        else (⟨⟨file ++ appended (todo.take x.2), fin || finishes (todo.take x.2), file.length, file.drop p, none⟩, todo.drop x.2⟩, none) := by
      simp only [growing, hg, hfetch]
      simp only [Grow.write, run_writes s1, Grow.load, Blk.step]
      by_cases hf : (fin || finishes (todo.take x.2)) = true
      · simp only [hf, ↓reduceIte]
      · simp only [hf, ↓reduceIte, Bool.false_eq_true]
    have happ : appended todo = appended (todo.take x.2) ++ appended (todo.drop x.2) := by
      rw [← appended_append, List.take_append_drop]
    cases hf : fin || finishes (todo.take x.2) with
    | true =>
      rw [hf] at s2
      have a2 := scribe_fin s2
      have a1 : appended (todo.take x.2) = [] := by
        cases hfin : fin with
        | true => rw [hfin] at s1; exact scribe_fin s1
        | false =>
          rcases hm with hm | hm
          · exact hm
          · rw [hfin, hm] at hf; cases hf
      rw [a1, a2] at happ
      simp only [List.append_nil] at happ
      have hFf : F = file := by rw [hF, happ, List.append_nil]
      simp only [hf, ↓reduceIte] at e
      have hl : (file.drop p).take n = file.drop p := List.take_of_length_le (by rw [List.length_drop]; omega)
      refine .inr ⟨by rw [e, hFf, hl], fun m hm => ?_⟩
      rw [e, hFf, hl]
      exact ⟨rfl, s2, by simp only [a1, a2, List.append_nil], by simp only [List.length_drop, List.length_nil, List.length_append]; omega, by simp, hm⟩
    | false =>
      simp only [hf, Bool.false_eq_true, ↓reduceIte] at e
      rw [hf] at s2
      refine .inl ⟨by rw [e], ?_, by rw [hc, hf], by simp only [Grow.unread]; omega⟩
      rw [e]
      refine ⟨rfl, s2, by simp only [List.append_assoc]; rw [hF, happ], by simp only [List.length_drop, List.length_append]; omega, ?_, by simp only [List.length_drop]; omega⟩
      simp only
      rw [hF, List.drop_append_of_le_length (by omega), List.take_append_of_le_length (by simp), List.take_of_length_le (by simp)]

/-- `seek` (std-binary/src/blocking_reader.rs:86-91; not used by `sync`, which does not prefer to seek): the next byte to be delivered is the one at `q`.
`tell` forgets the bytes which are held back: the next byte to be delivered is the one at the position which it reports. -/
theorem growing_seek {F : Bytes} {p n : Nat} {g : Grow} (h : GrowAt F p n g) (q m : Nat) (hm : 0 < m) (hq : q ≤ g.blk.file.length) :
    (growing.seek g q).2 = true ∧ GrowAt F q m (growing.seek g q).1 ∧ (growing.tell g).2 = some g.blk.pos ∧
    GrowAt F g.blk.pos m (growing.tell g).1 := by
  obtain ⟨⟨file, fin, pos, temp, pend⟩, todo⟩ := g
  have hp := h.pend
  simp only at hp hq
  subst hp
  exact ⟨rfl, ⟨rfl, h.scribe, h.file, ⟨rfl, hq⟩, by simp [growing, Blk.step], hm⟩, rfl, rfl, h.scribe, h.file, ⟨rfl, h.pos.2⟩, by simp [growing], hm⟩

/-! ### Reading in blocks -/

theorem growing_delivers {F : Bytes} {bs : Nat} (hbs : 0 < bs) :
    Delivers growing F bs (fun k g => k < nblocks F bs → GrowAt F (bytesIn F bs k) bs g) NoRace where
  step := by
    intro k g h hk x hr
    have h := h hk
    have hkl : k * bs ≤ F.length := by
      have : k ≤ F.length / bs := by unfold nblocks at hk; omega
      calc k * bs ≤ F.length / bs * bs := Nat.mul_le_mul_right _ this
        _ ≤ F.length := Nat.div_mul_le_self _ _
    have hb : bytesIn F bs k = k * bs := by unfold bytesIn; omega
    rcases growing_step h x hr with ⟨h1, h2, _⟩ | ⟨h1, h2⟩
    · exact .inl ⟨h1, fun _ => h2⟩
    · refine .inr ⟨?_, fun _ => ?_⟩
      · rw [h1, hb]; rfl
      · have := h2 bs hbs
        rw [hb, List.length_take, List.length_drop] at this
        have e : bytesIn F bs (k + 1) = k * bs + min bs (F.length - k * bs) := by
          unfold bytesIn
          rw [Nat.add_mul, Nat.one_mul]
          omega
        rw [e]
        exact this

/-! ### StreamReader over a source -/

/-- src/readers/encrypted_stream_reader.rs:21-38, like `StreamIn`, over a source. -/
structure SealG (σ : Type) where
  pos : Option Nat
  nonce : Bytes
  header : Bool
  src : σ

/-- src/readers/encrypted_stream_reader.rs:40-97: `read` and `seek` of a `StreamReader` over a source. -/
def sealingOver {σ ι} (A : StreamAead) (T : Source σ ι) : Source (SealG σ) ι where
  read s len x :=
    if len < minStream ∨ len > 1425 then (s, none)
    else
      let head := if s.header then be16 (UInt16.ofNat len) ++ s.nonce else []
      let size := len - 16 - head.length
      match T.read s.src size x with
      | (r, none) => ({ s with src := r }, none)
      | (r, some b) =>
        match streamEncrypt A s.nonce s.pos b size with
        | (pos, .error _) => ({ s with src := r, pos := pos }, none)
        | (pos, .ok c) => ({ s with src := r, pos := pos, header := false }, some (head ++ c))
  tell s := (s, none)
  seek s _ := (s, false)

/-- It cannot seek, whatever the source can do (src/readers/encrypted_stream_reader.rs:92-97). -/
theorem sealingOver_noSeek {σ ι} (A : StreamAead) (T : Source σ ι) : NoSeek (sealingOver A T) := ⟨fun _ _ => rfl, fun _ => rfl⟩

/-- Over a regular file this is `sealing` (SealedUp.lean). -/
theorem sealing_file (A : StreamAead) (s : SealG FileR) (len : Nat) (fail : Bool) :
    let f := fun s : SealG FileR => (⟨s.pos, s.nonce, s.header, s.src.file.drop s.src.pos⟩ : StreamIn)
    ((sealing A).read (f s) len fail).2 = ((sealingOver A Source.file).read s len fail).2 ∧
    ((sealing A).read (f s) len fail).1 = f ((sealingOver A Source.file).read s len fail).1 := by
  obtain ⟨pos, nonce, header, ⟨file, p⟩⟩ := s
  simp only [sealing, sealingOver, StreamIn.read]
  by_cases hr : len < minStream ∨ len > 1425
  · simp only [if_pos hr, and_self]
  · simp only [if_neg hr]
    cases fail with
    | true => simp only [if_true, Source.file, FileR.read, and_self]
    | false =>
      generalize hh : (if header = true then be16 (UInt16.ofNat len) ++ nonce else []) = head
      simp only [Bool.false_eq_true, if_false, Source.file, FileR.read, show min len (len - 16 - head.length) = len - 16 - head.length by omega]
      cases pos with
      | none => simp [streamEncrypt]
      | some i =>
        simp only [streamEncrypt]
        by_cases h1 : len - 16 - head.length = ((file.drop p).take (len - 16 - head.length)).length
        · simp only [if_pos h1]
          by_cases h2 : i = streamMax
          · simp [h2]
          · simp [h2]
        · simp only [if_neg h1, List.drop_drop, and_self]

/-- The reader after `k` blocks. -/
structure SealAt {σ} (u : Upload) (At : Nat → Nat → σ → Prop) (k : Nat) (s : SealG σ) : Prop where
  pos : s.pos = if k < pieces u.file u.len then some k else none
  nonce : s.nonce = u.nonce
  header : s.header = decide (k = 0)
  src : k < pieces u.file u.len → At (cut u.len k) (u.len - 16 - if k = 0 then 21 else 0) s.src

theorem sealing_step {A : StreamAead} {u : Upload} (h : u.Fits) {k : Nat} (hk : k < pieces u.file u.len) {g : SealG Grow}
    (hs : SealAt u (GrowAt u.file) k g) (x : Nat × Nat) (hr : NoRace g.src x) :
    (((sealingOver A growing).read g u.len x).2 = none ∧ SealAt u (GrowAt u.file) k ((sealingOver A growing).read g u.len x).1 ∧
      g.src.complete x = false ∧ (g.src.write x.1).unread < u.len - 16 - if k = 0 then 21 else 0) ∨
    (((sealingOver A growing).read g u.len x).2 = some (sealedBlock A u k) ∧ SealAt u (GrowAt u.file) (k + 1) ((sealingOver A growing).read g u.len x).1) := by
  have hl := h.len
  have hrange : ¬ (u.len < minStream ∨ u.len > 1425) := by unfold minStream; omega
  have hstep := cut_step (k := k) hl.1
  have hmax : ¬ k = streamMax := by have := h.size; omega
  obtain ⟨h1, h2, h3, h4⟩ := hs
  have h4 := h4 hk
  rw [if_pos hk] at h1
  have hhead : (if g.header then be16 (UInt16.ofNat u.len) ++ g.nonce else []) = if k = 0 then be16 (UInt16.ofNat u.len) ++ u.nonce else [] := by
    rw [h3, h2]; simp
  have hheadl : (if k = 0 then be16 (UInt16.ofNat u.len) ++ u.nonce else []).length = if k = 0 then 21 else 0 := by
    by_cases h0 : k = 0
    · simp only [h0, if_true]; exact head_length h
    · simp [h0]
  have hp : (u.file.drop (cut u.len k)).take (u.len - 16 - if k = 0 then 21 else 0) = piece u.file u.len k := by
    unfold piece
    rw [List.drop_take, hstep]
  have hstep' := growing_step h4 x hr
  generalize hy : growing.read g.src (u.len - 16 - if k = 0 then 21 else 0) x = y at hstep'
  obtain ⟨y1, y2⟩ := y
  simp only at hstep'
  rcases hstep' with ⟨rfl, a2, a3⟩ | ⟨rfl, a2⟩
  · have e : (sealingOver A growing).read g u.len x = ({ g with src := y1 }, none) := by
      simp only [sealingOver, if_neg hrange, hhead, hheadl, hy]
    refine .inl ⟨by rw [e], ?_, a3⟩
    rw [e]
    exact ⟨by rw [if_pos hk]; exact h1, h2, h3, fun _ => a2⟩
  · rw [hp] at a2 hy
    have hcut : cut u.len k ≤ u.file.length := cut_before hl.1 hk
    have hnext : cut u.len k + (piece u.file u.len k).length = min u.file.length (cut u.len (k + 1)) := by
      have hle := cut_le u.len k
      rw [← hp, List.length_take, List.length_drop]
      omega
    by_cases hl1 : k + 1 = pieces u.file u.len
    · have hs := piece_short hl.1 hl1
      have e : (sealingOver A growing).read g u.len x = (⟨none, g.nonce, false, y1⟩, some (sealedBlock A u k)) := by
        simp only [sealingOver, if_neg hrange, hhead, hheadl, hy]
        simp only [streamEncrypt, h1, h2]
        rw [if_neg (Nat.ne_of_gt hs)]
        simp [sealedBlock, sealedPiece, hl1]
      refine .inr ⟨by rw [e], ?_⟩
      rw [e]
      exact ⟨by rw [if_neg (by omega)], h2, by simp, fun h => by omega⟩
    · have hf := piece_full (k := k) (file := u.file) hl.1 (by omega)
      have e : (sealingOver A growing).read g u.len x = (⟨some (k + 1), g.nonce, false, y1⟩, some (sealedBlock A u k)) := by
        simp only [sealingOver, if_neg hrange, hhead, hheadl, hy]
        simp only [streamEncrypt, h1, h2]
        rw [if_pos hf.symm, if_neg hmax]
        simp [sealedBlock, sealedPiece, hl1]
      refine .inr ⟨by rw [e], ?_⟩
      rw [e]
      have hk1 : k + 1 < pieces u.file u.len := by omega
      refine ⟨by rw [if_pos hk1], h2, by simp, fun _ => ?_⟩
      have hc := cut_before hl.1 hk1
      have := a2 (u.len - 16 - if k + 1 = 0 then 21 else 0) (by simp; omega)
      rw [hnext, Nat.min_eq_right hc] at this
      exact this

theorem sealing_delivers {A : StreamAead} {u : Upload} (h : u.Fits) :
    Delivers (sealingOver A growing) (Spec.sealed A u.nonce u.file u.len) u.len (SealAt u (GrowAt u.file)) fun s x => NoRace s.src x where
  step := by
    intro k s hs hk x hr
    obtain ⟨b1, b2⟩ := sealed_blocks (A := A) h
    rw [b1] at hk
    rcases sealing_step (A := A) h hk hs x hr with ⟨h1, h2, _⟩ | ⟨h1, h2⟩
    · exact .inl ⟨h1, h2⟩
    · exact .inr ⟨by rw [h1, b2 k hk], h2⟩

end Tftp

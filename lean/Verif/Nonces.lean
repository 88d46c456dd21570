import Verif.Stream
/-
C95: the nonces with which a file is sealed. The XChaCha20-Poly1305 nonce of a piece is the prefix of the file, the counter in four bytes and one byte for the last
piece (`aead::stream::StreamBE32`). A nonce used twice under one key gives the contents away, so this must not happen for any file, buffer or failure.
-/
namespace Tftp

/-- Specification: the 24 byte nonce of a piece. A counter above 32 bits would start again at zero. -/
def Spec.pieceNonce (pre : Bytes) (counter : Nat) (last : Bool) : Bytes :=
  pre ++ [UInt8.ofNat (counter / 2 ^ 24), UInt8.ofNat (counter / 2 ^ 16), UInt8.ofNat (counter / 2 ^ 8), UInt8.ofNat counter, if last then 1 else 0]

/-- Specification: one call of the cipher: counter, last piece?, plain text. -/
structure Spec.Sealing where
  counter : Nat
  last : Bool
  plain : Bytes

/-- Any sequence of reads: for each the length of the buffer, and what the inner reader does (at most `k` bytes, or a failure). -/
def StreamIn.readsAny (A : StreamAead) (s : StreamIn) : List (Nat × Option Nat) → StreamIn × List (Except StreamErr Bytes)
  | [] => (s, [])
  | x :: xs =>
    let r := s.read A x.1 x.2
    let q := r.1.readsAny A xs
    (q.1, r.2 :: q.2)

/-- Specification: what is returned is the sealed piece, after a header or not; an error if nothing was sealed. -/
def Spec.Returned (A : StreamAead) (pre : Bytes) : Option Sealing → Except StreamErr Bytes → Prop
  | some c, r => ∃ head, r = .ok (head ++ A.enc pre c.counter c.last c.plain)
  | none, r => ∃ e, r = .error e

/-- Specification: counters from `i` on, each larger than all before, and within 32 bits. -/
def Spec.Rising (i : Nat) : List Sealing → Prop
  | [] => True
  | c :: cs => i ≤ c.counter ∧ c.counter < 2 ^ 32 ∧ Rising (c.counter + 1) cs

open Spec

theorem Rising.weaken {i j : Nat} (h : j ≤ i) : ∀ {cs : List Sealing}, Rising i cs → Rising j cs
  | [], _ => trivial
  | _ :: _, ⟨h1, h2, h3⟩ => ⟨by omega, h2, h3⟩

theorem Rising.bounds {i : Nat} : ∀ {cs : List Sealing}, Rising i cs → ∀ c ∈ cs, i ≤ c.counter ∧ c.counter < 2 ^ 32
  | [], _, c, hc => by cases hc
  | x :: xs, ⟨h1, h2, h3⟩, c, hc => by
    rcases List.mem_cons.mp hc with rfl | hc
    · exact ⟨h1, h2⟩
    · have := Rising.bounds h3 c hc
      omega

theorem pieceNonce_counter {p : Bytes} {i j : Nat} {a b : Bool} (hi : i < 2 ^ 32) (hj : j < 2 ^ 32) (h : pieceNonce p i a = pieceNonce p j b) : i = j := by
  unfold pieceNonce at h
  have h := List.append_cancel_left h
  simp only [List.cons.injEq] at h
  obtain ⟨h1, h2, h3, h4, -⟩ := h
  have g1 := congrArg UInt8.toNat h1
  have g2 := congrArg UInt8.toNat h2
  have g3 := congrArg UInt8.toNat h3
  have g4 := congrArg UInt8.toNat h4
  simp only [UInt8.toNat_ofNat'] at g1 g2 g3 g4
  omega

/-- One read: an error, or one sealing with the present position. -/
theorem read_seals (s : StreamIn) (len : Nat) (k : Option Nat) :
    (∃ s', ∃ e, (∀ A, s.read A len k = (s', .error e)) ∧ s'.nonce = s.nonce ∧ (s'.pos = s.pos ∨ s'.pos = none)) ∨
    ∃ i head b l s', s.pos = some i ∧ (∀ A : StreamAead, s.read A len k = (s', .ok (head ++ A.enc s.nonce i l b))) ∧ s'.nonce = s.nonce ∧
      (l = false ∧ i ≠ streamMax ∧ s'.pos = some (i + 1) ∨ l = true ∧ s'.pos = none) := by
  unfold StreamIn.read
  by_cases hlen : len < minStream ∨ len > 1425
  · simp only [hlen, ↓reduceIte]
    exact .inl ⟨s, _, fun _ => rfl, rfl, .inl rfl⟩
  · simp only [hlen, ↓reduceIte]
    cases k with
    | none => exact .inl ⟨s, _, fun _ => rfl, rfl, .inl rfl⟩
    | some k =>
      simp only
      generalize (if s.header = true then be16 (UInt16.ofNat len) ++ s.nonce else []) = head
      generalize s.rest.take (min k (len - 16 - head.length)) = b
      generalize len - 16 - head.length = size
      unfold streamEncrypt
      cases hp : s.pos with
      | none => exact .inl ⟨_, _, fun _ => rfl, rfl, .inr rfl⟩
      | some i =>
        by_cases hs : size = b.length
        · by_cases hm : i = streamMax
          · simp only [hs, ↓reduceIte, hm]
            exact .inl ⟨_, _, fun _ => rfl, rfl, .inl rfl⟩
          · simp only [hs, ↓reduceIte, hm]
            exact .inr ⟨i, head, b, false, _, rfl, fun _ => rfl, rfl, .inl ⟨rfl, hm, rfl⟩⟩
        · simp only [hs, ↓reduceIte]
          exact .inr ⟨i, head, b, true, _, rfl, fun _ => rfl, rfl, .inr ⟨rfl, rfl⟩⟩

theorem readsAny_seals (xs : List (Nat × Option Nat)) : ∀ (s : StreamIn), (∀ i, s.pos = some i → i ≤ streamMax) →
    ∃ calls : List (Option Sealing), (∀ A, ∃ h : calls.length = (s.readsAny A xs).2.length,
        ∀ n (hn : n < calls.length), Returned A s.nonce calls[n] ((s.readsAny A xs).2[n]'(h ▸ hn))) ∧
      (∀ i, s.pos = some i → Rising i (calls.filterMap id)) ∧ (s.pos = none → calls.filterMap id = []) ∧
      (∀ c ∈ (calls.filterMap id).dropLast, c.last = false) := by
  induction xs with
  | nil =>
    intro s _
    exact ⟨[], fun A => ⟨rfl, fun n hn => by cases hn⟩, fun _ _ => trivial, fun _ => rfl, fun c hc => by cases hc⟩
  | cons x xs ih =>
    intro s hs
    rcases read_seals s x.1 x.2 with ⟨s', e, h1, h2, h3⟩ | ⟨i, head, b, l, s', hp, h1, h2, h3⟩
    · obtain ⟨calls, g1, g2, g3, g4⟩ := ih s' (fun i hi => by
        rcases h3 with h3 | h3
        · exact hs i (by rw [← h3]; exact hi)
        · rw [h3] at hi; cases hi)
      refine ⟨none :: calls, fun A => ?_, fun i hi => ?_, fun hi => ?_, by simpa using g4⟩
      · obtain ⟨k1, k2⟩ := g1 A
        have e1 : (s.readsAny A (x :: xs)).2 = .error e :: (s'.readsAny A xs).2 := by simp only [StreamIn.readsAny, h1 A]
        refine ⟨by rw [e1, List.length_cons, List.length_cons, k1], fun n hn => ?_⟩
        cases n with
        | zero => simp only [e1, List.getElem_cons_zero]; exact ⟨e, rfl⟩
        | succ n =>
          simp only [e1, List.getElem_cons_succ]
          have q := k2 n (by simpa using hn)
          rw [h2] at q
          exact q
      · rcases h3 with h3 | h3
        · exact g2 i (by rw [h3]; exact hi)
        · have := g3 h3
          simp only [List.filterMap_cons, id, this]
          trivial
      · rcases h3 with h3 | h3
        · exact g3 (by rw [h3]; exact hi)
        · exact g3 h3
    · have hi := hs i hp
      obtain ⟨calls, g1, g2, g3, g4⟩ := ih s' (fun j hj => by
        rcases h3 with ⟨-, hm, h3⟩ | ⟨-, h3⟩
        · rw [h3] at hj
          cases hj
          have := hs i hp
          omega
        · rw [h3] at hj; cases hj)
      have hlt : i < 2 ^ 32 := by unfold streamMax at hi; omega
      refine ⟨some ⟨i, l, b⟩ :: calls, fun A => ?_, fun j hj => ?_, (fun hn => by rw [hp] at hn; cases hn), ?_⟩
      · obtain ⟨k1, k2⟩ := g1 A
        have e1 : (s.readsAny A (x :: xs)).2 = .ok (head ++ A.enc s.nonce i l b) :: (s'.readsAny A xs).2 := by simp only [StreamIn.readsAny, h1 A]
        refine ⟨by rw [e1, List.length_cons, List.length_cons, k1], fun n hn => ?_⟩
        cases n with
        | zero => simp only [e1, List.getElem_cons_zero]; exact ⟨head, rfl⟩
        | succ n =>
          simp only [e1, List.getElem_cons_succ]
          have q := k2 n (by simpa using hn)
          rw [h2] at q
          exact q
      · rw [hp] at hj
        cases hj
        refine ⟨Nat.le_refl _, hlt, ?_⟩
        rcases h3 with ⟨-, -, h3⟩ | ⟨-, h3⟩
        · exact g2 _ h3
        · have := g3 h3
          rw [this]
          trivial
      · intro c hc
        simp only [List.filterMap_cons, id] at hc
        rcases h3 with ⟨h4, -, -⟩ | ⟨-, h3⟩
        · cases hq : calls.filterMap id with
          | nil => rw [hq] at hc; cases hc
          | cons y ys =>
            rw [hq, List.dropLast_cons_of_ne_nil (by simp)] at hc
            rcases List.mem_cons.mp hc with rfl | hc
            · exact h4
            · exact g4 c (by rw [hq]; exact hc)
        · rw [g3 h3] at hc
          cases hc

theorem rising_distinct (pre : Bytes) : ∀ (cs : List Sealing) (i : Nat), Rising i cs →
    (cs.map fun c => pieceNonce pre c.counter c.last).Pairwise (· ≠ ·)
  | [], _, _ => .nil
  | c :: cs, i, ⟨_, h2, h3⟩ => by
    rw [List.map_cons]
    refine .cons ?_ (rising_distinct pre cs _ h3)
    intro y hy e
    obtain ⟨d, hd, rfl⟩ := List.mem_map.mp hy
    have := Rising.bounds h3 d hd
    have := pieceNonce_counter h2 this.2 e
    omega

/-- **C95**: whatever buffers a file is read with, and whatever the file's reads give (short, failed, at the end, afterwards), the cipher is called for the pieces
with nonces of which no two are equal; all begin with the prefix of the file. Which calls are made does not depend on the cipher, every piece returned
is the result of one of them, and only the last call is marked as last. -/
theorem c95_nonces (pre file : Bytes) (xs : List (Nat × Option Nat)) :
    ∃ calls : List (Option Sealing),
      (∀ A, ∃ h : calls.length = ((StreamIn.new pre file).readsAny A xs).2.length,
        ∀ n (hn : n < calls.length), Returned A pre calls[n] (((StreamIn.new pre file).readsAny A xs).2[n]'(h ▸ hn))) ∧
      (∀ c ∈ calls.filterMap id, c.counter < 2 ^ 32) ∧
      ((calls.filterMap id).map fun c => pieceNonce pre c.counter c.last).Pairwise (· ≠ ·) ∧
      (∀ c ∈ (calls.filterMap id).dropLast, c.last = false) := by
  obtain ⟨calls, h1, h2, -, h4⟩ := readsAny_seals xs (StreamIn.new pre file) (fun i hi => by
    cases hi
    exact Nat.zero_le _)
  have h3 := h2 0 rfl
  exact ⟨calls, h1, fun c hc => (Rising.bounds h3 c hc).2, rising_distinct pre _ 0 h3, h4⟩

/-- **C95**: files sealed with prefixes of the same length which differ have no nonce in common. -/
theorem c95_files {p q : Bytes} (hl : p.length = q.length) (hne : p ≠ q) (i j : Nat) (a b : Bool) : pieceNonce p i a ≠ pieceNonce q j b := by
  intro h
  exact hne (List.append_inj h hl).1

/-- So a file has at most 2^32 pieces. -/
theorem rising_length {i : Nat} : ∀ {cs : List Sealing}, Rising i cs → i ≤ 2 ^ 32 → i + cs.length ≤ 2 ^ 32
  | [], _, h => by simpa using h
  | c :: cs, ⟨h1, h2, h3⟩, _ => by
    have := rising_length h3 (by omega)
    simp only [List.length_cons]
    omega

/-- **C95**: so at most 2^32 pieces are ever returned. -/
theorem c95_at_most (A : StreamAead) (pre file : Bytes) (xs : List (Nat × Option Nat)) :
    (((StreamIn.new pre file).readsAny A xs).2.filter fun r => r matches .ok _).length ≤ 2 ^ 32 := by
  obtain ⟨calls, h1, h2, -, -⟩ := readsAny_seals xs (StreamIn.new pre file) (fun i hi => by
    cases hi
    exact Nat.zero_le _)
  have h3 := rising_length (h2 0 rfl) (by omega)
  obtain ⟨k1, k2⟩ := h1 A
  have key : ∀ (rs : List (Except StreamErr Bytes)) (cs : List (Option Sealing)) (h : cs.length = rs.length),
      (∀ n (hn : n < cs.length), Returned A pre cs[n] (rs[n]'(h ▸ hn))) → (rs.filter fun r => r matches .ok _).length = (cs.filterMap id).length := by
    intro rs
    induction rs with
    | nil =>
      intro cs h _
      cases cs with
      | nil => rfl
      | cons c cs => simp at h
    | cons r rs ih =>
      intro cs h hr
      cases cs with
      | nil => cases h
      | cons c cs =>
        have h' : cs.length = rs.length := by simpa using h
        have := ih cs h' (fun n hn => hr (n + 1) (Nat.succ_lt_succ hn))
        have h0 := hr 0 (by simp)
        simp only [List.getElem_cons_zero] at h0
        cases c with
        | none =>
          obtain ⟨e, rfl⟩ := h0
          simpa using this
        | some c =>
          obtain ⟨head, rfl⟩ := h0
          simpa using this
  rw [key _ _ k1 k2]
  omega

/-! ### Example -/

/-- Reading five bytes with buffers of 40, of which the header takes 21 and the tag 16: 3 bytes, a failed read, the other 2 bytes as last piece, and an error. -/
example (A : StreamAead) :
    ((StreamIn.new (List.replicate 19 7) [1, 2, 3, 4, 5]).readsAny A [(40, some 40), (40, none), (40, some 40), (40, some 40)]).2.map Except.toOption =
      [some (be16 40 ++ List.replicate 19 7 ++ A.enc (List.replicate 19 7) 0 false [1, 2, 3]), none, some (A.enc (List.replicate 19 7) 1 true [4, 5]), none] := rfl

/-- The nonces of these two calls. -/
example : pieceNonce (List.replicate 19 7) 0 false = List.replicate 19 7 ++ [0, 0, 0, 0, 0] ∧
    pieceNonce (List.replicate 19 7) 258 true = List.replicate 19 7 ++ [0, 0, 1, 2, 1] := by decide

end Tftp

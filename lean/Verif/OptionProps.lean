import Verif.PacketProps

/-! # C04 and C42 for whole datagrams

The theorems of PacketProps about the decoder of the option list, lifted to the datagrams which a
peer sends, and without the condition that the rest of the datagram is well formed. -/

namespace Tftp

open Spec

namespace Spec

/-- The start of a request datagram: opcode, file name, mode. -/
def requestHead (write : Bool) (name : Bytes) : Bytes :=
  [0, if write then 2 else 1] ++ name ++ 0 :: (ascii "octet" ++ [0])

/-- The value of the last of the pairs which carry the option `k`. -/
def lastValue (ps : List (Bytes × Bytes)) (k : Extension) : Option Bytes :=
  ((ps.filter fun p => Extension.ofName p.1 = some k).getLast?).map (·.2)

end Spec

theorem denotes_lastValue (ps : List (Bytes × Bytes)) (k : Extension) : denotes ps k = lastValue ps k := by
  induction ps with
  | nil => rfl
  | cons p r ih =>
    obtain ⟨n, v⟩ := p
    rw [denotes, ih]
    simp only [lastValue, List.filter_cons]
    by_cases h : Extension.ofName n = some k
    · simp only [h, decide_true, ↓reduceIte]
      cases hr : (r.filter fun p => Extension.ofName p.1 = some k) with
      | nil => simp
      | cons q t => rw [List.getLast?_cons_cons]; cases hg : (q :: t).getLast? with
        | none => simp at hg
        | some w => simp
    · simp only [h, decide_false, Bool.false_eq_true, ↓reduceIte]
      cases ((r.filter fun p => Extension.ofName p.1 = some k).getLast?).map (·.2) <;> rfl

/-- The option loop reads well formed pairs and goes on with the rest, as long as an option is missing. -/
theorem extLoop_pairs (ps : List (Bytes × Bytes)) (hok : PairsOk ps) (rest : Bytes) (hr : rest ≠ []) (e : Exts)
    (hs : (applyPairs e ps).size < 8) (f g : Nat) (hf : (pairsWire ps ++ rest).length < f) (hg : rest.length < g) :
    extLoop f (pairsWire ps ++ rest) e = extLoop g rest (applyPairs e ps) := by
  induction ps generalizing e f with
  | nil => exact extLoop_fuel _ _ _ _ (by simpa [pairsWire] using hf) hg
  | cons p ps ih =>
    obtain ⟨n, v⟩ := p
    obtain ⟨f, rfl⟩ : ∃ f', f = f' + 1 := ⟨f - 1, by omega⟩
    have ho := hok (n, v) (by simp)
    have hse : e.size < 8 := by
      rw [Exts.size_lt_iff] at hs ⊢
      intro h; apply hs; intro k; rw [applyPairs_eq]; split
      · rfl
      · exact h k
    have hb : pairsWire ((n, v) :: ps) ++ rest = n ++ 0 :: (v ++ 0 :: (pairsWire ps ++ rest)) := by
      simp [pairsWire]
    have hne : (pairsWire ps ++ rest).isEmpty = false := by
      cases hx : pairsWire ps ++ rest with
      | nil => simp at hx; exact absurd hx.2 hr
      | cons => rfl
    rw [hb] at hf ⊢
    rw [extLoop, if_pos hse, splitNul_append ho.1.1]
    simp only [ho.1.2, ↓reduceIte]
    rw [splitNul_append ho.2.1]
    simp only [ho.2.2, ↓reduceIte, hne, Bool.false_eq_true]
    exact ih (fun p hp => hok p (by simp [hp])) _ (by simpa only [applyPairs] using hs) _
      (by simp at hf ⊢; omega)

theorem applyPairs_unknown (us : List (Bytes × Bytes)) (hu : ∀ p ∈ us, Extension.ofName p.1 = none) (e : Exts) :
    applyPairs e us = e := by
  funext k
  rw [applyPairs_eq]
  have h : denotes us k = none := by
    rw [denotes_lastValue, lastValue, List.filter_eq_nil_iff.mpr]
    · rfl
    · intro p hp; simp [hu p hp]
  rw [h]

theorem applyPairs_append (e : Exts) (ps qs : List (Bytes × Bytes)) :
    applyPairs e (ps ++ qs) = applyPairs (applyPairs e ps) qs := by
  induction ps generalizing e with
  | nil => rfl
  | cons p r ih => obtain ⟨n, v⟩ := p; simp only [List.cons_append, applyPairs]; exact ih _

/-- The decoder of the option list does not see unknown options, whatever follows. -/
theorem exts_unknown (ps us : List (Bytes × Bytes)) (tail : Bytes) (hok : PairsOk (ps ++ us))
    (hu : ∀ p ∈ us, Extension.ofName p.1 = none) (hnf : ¬ Full ps) (hne : ps ≠ [] ∨ tail ≠ []) :
    Exts.fromBytes (pairsWire ps ++ pairsWire us ++ tail) = Exts.fromBytes (pairsWire ps ++ tail) := by
  have hsz : (applyPairs Exts.empty ps).size < 8 := by rw [Exts.size_lt_iff, applyPairs_empty]; exact hnf
  have hps : PairsOk ps := fun p hp => hok p (by simp [hp])
  by_cases ht : tail = []
  · have hp : ps ≠ [] := by rcases hne with h | h; exact h; exact absurd ht h
    have hfull : ¬ Full (ps ++ []) := by simpa using hnf
    have h := (c04_unknown_options_ignored ps [] us hu (by simpa using hok) (by simpa using hp) hfull).1
    subst ht
    simpa [pairsWire_append] using h
  · unfold Exts.fromBytes
    rw [← pairsWire_append]
    rw [extLoop_pairs (ps ++ us) hok tail ht Exts.empty
      (by rw [applyPairs_append, applyPairs_unknown us hu]; exact hsz) _ (tail.length + 1) (by omega) (by omega)]
    rw [extLoop_pairs ps hps tail ht Exts.empty hsz _ (tail.length + 1) (by omega) (by omega)]
    rw [applyPairs_append, applyPairs_unknown us hu]

theorem exts_only_unknown (us : List (Bytes × Bytes)) (hok : PairsOk us) (hne : us ≠ [])
    (hu : ∀ p ∈ us, Extension.ofName p.1 = none) : Exts.fromBytes (pairsWire us) = .ok Exts.empty := by
  have h := (Exts.fromBytes_iff (pairsWire us) (denotes us)).mpr
    ⟨us, [], hne, hok, by simp, rfl, (fun h => by
      have h1 := h .timeout
      rw [← applyPairs_empty, applyPairs_unknown _ (fun p hp => hu p (List.dropLast_subset _ hp))] at h1
      simp [Exts.empty] at h1), Or.inl rfl⟩
  rw [h, ← applyPairs_empty, applyPairs_unknown us hu]

theorem request_unknown (name : Bytes) (hname : (0 : UInt8) ∉ name) (ps us : List (Bytes × Bytes)) (tail : Bytes)
    (hok : PairsOk (ps ++ us)) (hu : ∀ p ∈ us, Extension.ofName p.1 = none) (hnf : ¬ Full ps) :
    Request.fromBytes (name ++ 0 :: (ascii "octet" ++ 0 :: (pairsWire ps ++ pairsWire us ++ tail))) =
    Request.fromBytes (name ++ 0 :: (ascii "octet" ++ 0 :: (pairsWire ps ++ tail))) := by
  have ho : (0 : UInt8) ∉ ascii "octet" := by decide
  unfold Request.fromBytes
  rw [splitNul_append hname, splitNul_append hname]
  simp only
  rw [splitNul_append ho, splitNul_append ho]
  simp only
  by_cases hne : ps ≠ [] ∨ tail ≠ []
  · have e1 : (pairsWire ps ++ tail).isEmpty = false := by
      cases hx : pairsWire ps ++ tail with
      | nil =>
        simp only [List.append_eq_nil_iff, pairsWire_eq_nil] at hx
        rcases hne with h | h
        · exact absurd hx.1 h
        · exact absurd hx.2 h
      | cons => rfl
    have e2 : (pairsWire ps ++ pairsWire us ++ tail).isEmpty = false := by
      cases hx : pairsWire ps ++ pairsWire us ++ tail with
      | nil =>
        simp only [List.append_eq_nil_iff, pairsWire_eq_nil] at hx
        rcases hne with h | h
        · exact absurd hx.1.1 h
        · exact absurd hx.2 h
      | cons => rfl
    rw [e1, e2, exts_unknown ps us tail hok hu hnf hne]
  · have hp : ps = [] := Classical.not_not.mp fun h => hne (.inl h)
    have ht : tail = [] := Classical.not_not.mp fun h => hne (.inr h)
    subst hp ht
    by_cases hus : us = []
    · subst hus; rfl
    · have e1 : (pairsWire us).isEmpty = false := by
        cases hx : pairsWire us with
        | nil => exact absurd (pairsWire_eq_nil.mp hx) hus
        | cons => rfl
      have := exts_only_unknown us (by simpa using hok) hus hu
      simp [pairsWire, this, e1]

/-- **C04** for requests: unknown options, inserted at any place of the option list of a request datagram, do not change what the
datagram is decoded to (a request or an error), as long as fewer than all eight known options precede them. Nothing is assumed about
what follows. -/
theorem c04_request (write : Bool) (name : Bytes) (hname : (0 : UInt8) ∉ name) (ps us : List (Bytes × Bytes)) (tail : Bytes)
    (hok : PairsOk (ps ++ us)) (hu : ∀ p ∈ us, Extension.ofName p.1 = none) (hnf : ∃ k, lastValue ps k = none) :
    Packet.fromBytes (requestHead write name ++ pairsWire ps ++ pairsWire us ++ tail) =
    Packet.fromBytes (requestHead write name ++ pairsWire ps ++ tail) := by
  have hnf' : ¬ Full ps := by
    obtain ⟨k, hk⟩ := hnf
    intro h; have := h k; rw [denotes_lastValue, hk] at this; simp at this
  have h := request_unknown name hname ps us tail hok hu hnf'
  cases write <;>
    simpa [requestHead, Packet.fromBytes, readU16, PacketType.ofRepr] using congrArg _ h

/-- **C04** for option acknowledgements. -/
theorem c04_option_ack (ps us : List (Bytes × Bytes)) (tail : Bytes) (hok : PairsOk (ps ++ us))
    (hu : ∀ p ∈ us, Extension.ofName p.1 = none) (hnf : ∃ k, lastValue ps k = none) (hne : ps ≠ [] ∨ tail ≠ []) :
    Packet.fromBytes ([0, 6] ++ pairsWire ps ++ pairsWire us ++ tail) = Packet.fromBytes ([0, 6] ++ pairsWire ps ++ tail) := by
  have hnf' : ¬ Full ps := by
    obtain ⟨k, hk⟩ := hnf
    intro h; have := h k; rw [denotes_lastValue, hk] at this; simp at this
  have h := exts_unknown ps us tail hok hu hnf' hne
  simpa [Packet.fromBytes, readU16, PacketType.ofRepr] using congrArg (fun x => x.map Packet.optionalAck) h

/-- **C42** for requests: the options of a decoded request are, for each known option, the value of its last occurrence in the
datagram. No other option has an influence on it. -/
theorem c42_request (write : Bool) (name : Bytes) (hname : Text name) (ps : List (Bytes × Bytes)) (hok : PairsOk ps)
    (hnf : ∃ k, lastValue ps k = none) :
    Packet.fromBytes (requestHead write name ++ pairsWire ps) =
      .ok (if write then .write ⟨name, lastValue ps⟩ else .read ⟨name, lastValue ps⟩) := by
  have hd : denotes ps = lastValue ps := by funext k; exact denotes_lastValue ps k
  have hnf' : ¬ Full ps := by
    obtain ⟨k, hk⟩ := hnf
    intro h; have := h k; rw [denotes_lastValue, hk] at this; simp at this
  have ho : (0 : UInt8) ∉ ascii "octet" := by decide
  have hu8 : utf8Valid (ascii "octet") = true := by decide
  have h : Request.fromBytes (name ++ 0 :: (ascii "octet" ++ 0 :: pairsWire ps)) = .ok ⟨name, lastValue ps⟩ := by
    unfold Request.fromBytes
    rw [splitNul_append hname.1]
    simp only
    rw [splitNul_append ho]
    simp only [hname.2, hu8, ↓reduceIte]
    by_cases hps : ps = []
    · subst hps; simp only [pairsWire, List.isEmpty_nil, ↓reduceIte]
      rfl
    · have e1 : (pairsWire ps).isEmpty = false := by
        cases hx : pairsWire ps with
        | nil => exact absurd (pairsWire_eq_nil.mp hx) hps
        | cons => rfl
      have h2 := (c04_unknown_options_ignored ps [] [] (by simp) (by simpa using hok) (by simpa using hps) (by simpa using hnf')).2
      rw [List.append_nil] at h2
      rw [h2, e1, hd]; rfl
  cases write <;>
    simp [requestHead, Packet.fromBytes, readU16, PacketType.ofRepr, Except.map, h]

/-- The condition of C42 can not be dropped: once all eight options were seen the decoder stops, a later repetition is not read. -/
theorem c42_ninth_ignored :
    let all := Extension.all.map fun k => (k.name, ascii "1")
    all.length = 8 ∧
    (match Packet.fromBytes (requestHead false (ascii "f") ++ pairsWire (all ++ [(ascii "tsize", ascii "2")])) with
      | .ok (.read r) => r.exts .transferSize
      | _ => none) = some (ascii "1") := by
  decide +kernel

/-- Non-vacuity: an unknown option before, between and after known ones, in front of a malformed rest. -/
example : (0 : UInt8) ∉ ascii "f" ∧ PairsOk ([(ascii "tsize", ascii "5")] ++ [(ascii "rollover", ascii "0")]) ∧
    (∀ p ∈ [(ascii "rollover", ascii "0")], Extension.ofName p.1 = none) ∧
    (∃ k, lastValue [(ascii "tsize", ascii "5")] k = none) := by
  refine ⟨by decide, ?_, by decide, .blockSize, by decide⟩
  intro p hp; simp at hp; rcases hp with rfl | rfl <;> (refine ⟨⟨?_, ?_⟩, ⟨?_, ?_⟩⟩ <;> decide)

end Tftp

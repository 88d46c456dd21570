import Verif.PacketSpec
/- Proofs of C01-C04 and C42 about the packet codec. -/
namespace Tftp
open Spec

/-! ### Exts lemmas -/

theorem Extension.mem_all (k : Extension) : k ∈ Extension.all := by cases k <;> decide

theorem Extension.all_nodup : Extension.all.Nodup := by decide

theorem Extension.ofName_name (k : Extension) : Extension.ofName k.name = some k := by
  cases k <;> decide

theorem Extension.name_text (k : Extension) : Text k.name := by
  cases k <;> (constructor <;> decide)

theorem Exts.size_lt_iff (e : Exts) : e.size < 8 ↔ ¬ ∀ k, (e k).isSome := by
  constructor
  · intro h hall
    have : (Extension.all.filter fun k => (e k).isSome) = Extension.all := by
      rw [List.filter_eq_self]; intro a _; exact hall a
    simp only [Exts.size, this] at h
    exact absurd h (by decide)
  · intro h
    have hle : e.size ≤ Extension.all.length := List.length_filter_le _ _
    have h8 : Extension.all.length = 8 := rfl
    by_cases h' : e.size < 8
    · exact h'
    · exfalso
      apply h
      intro k
      have heq : (Extension.all.filter fun k => (e k).isSome).length = Extension.all.length := by
        simp only [Exts.size] at h' hle; omega
      have := List.length_filter_eq_length_iff.mp heq
      exact this k (Extension.mem_all k)

theorem Exts.size_pos_iff (e : Exts) : 0 < e.size ↔ ∃ k, (e k).isSome := by
  simp only [Exts.size, List.length_filter_pos_iff]
  constructor
  · rintro ⟨k, _, h⟩; exact ⟨k, h⟩
  · rintro ⟨k, h⟩; exact ⟨k, Extension.mem_all k, h⟩

/-- Insert all pairs left to right, as the decoder loop does. -/
def applyPairs (e : Exts) : List (Bytes × Bytes) → Exts
  | [] => e
  | (n, v) :: r =>
    applyPairs (e.insertNamed n v) r

theorem applyPairs_eq (ps : List (Bytes × Bytes)) (e : Exts) (k : Extension) :
    applyPairs e ps k = match denotes ps k with | some v => some v | none => e k := by
  induction ps generalizing e with
  | nil => rfl
  | cons p r ih =>
    obtain ⟨n, v⟩ := p
    simp only [applyPairs, ih, denotes, Exts.insertNamed]
    cases hd : denotes r k with
    | some w => simp
    | none =>
      cases hn : Extension.ofName n with
      | none => simp
      | some k' =>
        by_cases hk : k' = k
        · subst hk; simp [Exts.insert]
        · simp [Exts.insert, hk, Ne.symm hk]

theorem applyPairs_empty (ps : List (Bytes × Bytes)) : applyPairs Exts.empty ps = denotes ps := by
  funext k
  rw [applyPairs_eq]
  cases denotes ps k <;> rfl

theorem denotes_append (ps qs : List (Bytes × Bytes)) (k : Extension) :
    denotes (ps ++ qs) k = match denotes qs k with | some v => some v | none => denotes ps k := by
  induction ps with
  | nil => simp [denotes]; cases denotes qs k <;> rfl
  | cons p r ih =>
    obtain ⟨n, v⟩ := p
    simp only [List.cons_append, denotes, ih]
    cases denotes qs k <;> simp

theorem pairsWire_append (ps qs : List (Bytes × Bytes)) :
    pairsWire (ps ++ qs) = pairsWire ps ++ pairsWire qs := by
  induction ps with
  | nil => rfl
  | cons p r ih => obtain ⟨n, v⟩ := p; simp [pairsWire, ih]

theorem pairsWire_eq_nil {ps : List (Bytes × Bytes)} : pairsWire ps = [] ↔ ps = [] := by
  cases ps with
  | nil => simp [pairsWire]
  | cons p r => obtain ⟨n, v⟩ := p; simp [pairsWire]

/-! ### The option loop -/

/-- The loop of the option decoder accepts exactly option lists. -/
theorem extLoop_iff (fuel : Nat) (b : Bytes) (e r : Exts) (hf : b.length < fuel)
    (he : e.size < 8) :
    extLoop fuel b e = .ok r ↔
      ∃ ps junk, ps ≠ [] ∧ PairsOk ps ∧ b = pairsWire ps ++ junk ∧ r = applyPairs e ps ∧
        (applyPairs e ps.dropLast).size < 8 ∧ (junk = [] ∨ ¬ r.size < 8) := by
  induction fuel generalizing b e with
  | zero => omega
  | succ fuel ih =>
    rw [extLoop, if_pos he]
    constructor
    · intro h
      split at h
      · simp at h
      · next name next hs1 =>
        split at h
        · next hu1 =>
          split at h
          · simp at h
          · next value next' hs2 =>
            split at h
            · next hu2 =>
              obtain ⟨hb, hn0⟩ := splitNul_eq_some.mp hs1
              obtain ⟨hb2, hv0⟩ := splitNul_eq_some.mp hs2
              simp only at h
              have hok : Text name ∧ Text value := ⟨⟨hn0, hu1⟩, ⟨hv0, hu2⟩⟩
              split at h
              · next hemp =>
                have hemp : next' = [] := by simpa using hemp
                injection h with h
                refine ⟨[(name, value)], [], by simp, ?_, ?_, ?_, ?_, Or.inl rfl⟩
                · intro p hp; simp at hp; subst hp; exact hok
                · simp [pairsWire, hb, hb2, hemp]
                · rw [← h]; simp only [applyPairs]
                · simpa [applyPairs] using he
              · next hne =>
                by_cases hfull : (e.insertNamed name value).size < 8
                · rw [ih _ _ (by simp [hb, hb2] at hf; omega) hfull] at h
                  obtain ⟨ps, junk, hne', hpo, hbb, hr, hdl, hj⟩ := h
                  refine ⟨(name, value) :: ps, junk, by simp, ?_, ?_, ?_, ?_, hj⟩
                  · intro p hp
                    rcases List.mem_cons.mp hp with rfl | hp
                    · exact hok
                    · exact hpo p hp
                  · simp [pairsWire, hb, hb2, hbb]
                  · rw [hr]; simp only [applyPairs]
                  · cases ps with
                    | nil => exact absurd rfl hne'
                    | cons q qs => simpa [applyPairs] using hdl
                · have hf1 : 0 < fuel := by simp [hb, hb2] at hf; omega
                  obtain ⟨f', rfl⟩ : ∃ f', fuel = f' + 1 := ⟨fuel - 1, by omega⟩
                  rw [extLoop, if_neg hfull] at h
                  injection h with h
                  refine ⟨[(name, value)], next', by simp, ?_, ?_, ?_, ?_, Or.inr ?_⟩
                  · intro p hp; simp at hp; subst hp; exact hok
                  · simp [pairsWire, hb, hb2]
                  · rw [← h]; simp only [applyPairs]
                  · simpa [applyPairs] using he
                  · rw [← h]; exact hfull
            · simp at h
        · simp at h
    · rintro ⟨ps, junk, hne, hpo, hb, hr, hdl, hj⟩
      cases ps with
      | nil => exact absurd rfl hne
      | cons p ps =>
        obtain ⟨n, v⟩ := p
        have hok := hpo (n, v) (by simp)
        simp only [pairsWire, List.append_assoc, List.cons_append] at hb
        have hs1 : splitNul b = some (n, v ++ 0 :: (pairsWire ps ++ junk)) := by
          rw [hb]; exact splitNul_append hok.1.1
        rw [hs1]
        simp only [hok.1.2, if_true]
        rw [splitNul_append hok.2.1]
        simp only [hok.2.2, if_true]
        cases ps with
        | nil =>
          have hpw : pairsWire [] ++ junk = junk := rfl
          rw [hpw]
          simp only [applyPairs] at hr
          by_cases hj' : junk.isEmpty = true
          · rw [if_pos hj', hr]
          · rw [if_neg hj']
            have hjf : ¬ r.size < 8 := by
              rcases hj with hj | hj
              · simp [hj] at hj'
              · exact hj
            have hf1 : 0 < fuel := by simp [hb] at hf; omega
            obtain ⟨f', rfl⟩ : ∃ f', fuel = f' + 1 := ⟨fuel - 1, by omega⟩
            rw [extLoop]
            rw [hr] at hjf
            rw [if_neg hjf, hr]
        | cons q qs =>
          have hne2 : ¬ (pairsWire (q :: qs) ++ junk).isEmpty = true := by
            obtain ⟨n', v'⟩ := q; simp [pairsWire]
          rw [if_neg hne2]
          have hdl' : (applyPairs (e.insertNamed n v) (q :: qs).dropLast).size < 8 := by
            simpa [applyPairs] using hdl
          have hsz : (e.insertNamed n v).size < 8 := by
            rw [Exts.size_lt_iff] at hdl' ⊢
            intro hall
            apply hdl'
            intro k
            rw [applyPairs_eq]
            split
            · rfl
            · exact hall k
          rw [ih _ _ (by simp [hb] at hf; simp; omega) hsz]
          refine ⟨q :: qs, junk, by simp, fun p hp => hpo p (by simp [hp]), rfl, ?_, hdl', hj⟩
          rw [hr]; simp only [applyPairs]

/-- The loop bound of the model is never reached: more fuel gives the same result. -/
theorem extLoop_fuel (f₁ f₂ : Nat) (b : Bytes) (e : Exts) (h₁ : b.length < f₁) (h₂ : b.length < f₂) :
    extLoop f₁ b e = extLoop f₂ b e := by
  induction f₁ generalizing b e f₂ with
  | zero => omega
  | succ f₁ ih =>
    obtain ⟨f₂, rfl⟩ : ∃ f', f₂ = f' + 1 := ⟨f₂ - 1, by omega⟩
    rw [extLoop, extLoop]
    split
    · split
      · rfl
      · next name next hs1 =>
        split
        · split
          · rfl
          · next value next' hs2 =>
            obtain ⟨hb, -⟩ := splitNul_eq_some.mp hs1
            obtain ⟨hb2, -⟩ := splitNul_eq_some.mp hs2
            split
            · simp only
              split
              · rfl
              · apply ih <;> (simp [hb, hb2] at h₁ h₂; omega)
            · rfl
        · rfl
    · rfl

theorem Exts.fromBytes_iff (b : Bytes) (e : Exts) :
    Exts.fromBytes b = .ok e ↔ OptionList b e := by
  rw [Exts.fromBytes, extLoop_iff _ _ _ _ (by omega) (by decide)]
  simp only [OptionList, Full]
  constructor
  · rintro ⟨ps, junk, h1, h2, h3, h4, h5, h6⟩
    rw [applyPairs_empty] at h4 h5
    rw [Exts.size_lt_iff] at h5
    refine ⟨ps, junk, h1, h2, h3, h4, h5, ?_⟩
    rcases h6 with h6 | h6
    · exact Or.inl h6
    · rw [h4, Exts.size_lt_iff, Classical.not_not] at h6
      exact Or.inr h6
  · rintro ⟨ps, junk, h1, h2, h3, h4, h5, h6⟩
    refine ⟨ps, junk, h1, h2, h3, ?_, ?_, ?_⟩
    · rw [applyPairs_empty]; exact h4
    · rw [applyPairs_empty, Exts.size_lt_iff]; exact h5
    · rcases h6 with h6 | h6
      · exact Or.inl h6
      · right; rw [h4, Exts.size_lt_iff, Classical.not_not]; exact h6

theorem octet_text : Text (ascii "octet") := by constructor <;> decide

theorem Request.fromBytes_iff (b : Bytes) (r : Request) :
    Request.fromBytes b = .ok r ↔ RequestBody b r := by
  unfold Request.fromBytes RequestBody
  constructor
  · intro h
    split at h
    · simp at h
    · next name rest hs1 =>
      split at h
      · next hu =>
        split at h
        · simp at h
        · next mode rest' hs2 =>
          obtain ⟨hb, hn0⟩ := splitNul_eq_some.mp hs1
          obtain ⟨hb2, _⟩ := splitNul_eq_some.mp hs2
          split at h
          · split at h
            · next hm =>
              split at h
              · next hemp =>
                injection h with h
                subst h
                exact ⟨[], ⟨hn0, hu⟩, by simp_all, Or.inl ⟨rfl, rfl⟩⟩
              · split at h
                · next e he =>
                  injection h with h
                  subst h
                  refine ⟨rest', ⟨hn0, hu⟩, by simp_all, Or.inr ((Exts.fromBytes_iff _ _).mp he)⟩
                · simp at h
            · simp at h
          · simp at h
      · simp at h
  · rintro ⟨opts, ⟨h0, hu⟩, hb, ho⟩
    have hs1 : splitNul b = some (r.fileName, ascii "octet" ++ 0 :: opts) := by
      rw [hb]; exact splitNul_append h0
    rw [hs1]
    simp only [hu, if_true]
    rw [splitNul_append octet_text.1]
    simp only [octet_text.2, if_true]
    rcases ho with ⟨rfl, he⟩ | ho
    · obtain ⟨fn, ex⟩ := r
      simp only at he
      subst he
      rfl
    · have hne : ¬ opts.isEmpty = true := by
        obtain ⟨ps, junk, hps, -, rfl, -⟩ := ho
        cases ps with
        | nil => exact absurd rfl hps
        | cons p ps => obtain ⟨n, v⟩ := p; simp [pairsWire]
      rw [if_neg hne, (Exts.fromBytes_iff _ _).mpr ho]

theorem PacketType.ofRepr_iff {n : UInt16} {t : PacketType} :
    PacketType.ofRepr n.toNat = some t ↔ n = t.repr := by
  constructor
  · intro h
    unfold PacketType.ofRepr at h
    split at h <;> first | (injection h with h; subst h; apply UInt16.toNat_inj.mp; assumption) | simp at h
  · rintro rfl; cases t <;> rfl

theorem ErrorCode.ofRepr_iff {n : UInt16} {t : ErrorCode} :
    ErrorCode.ofRepr n.toNat = some t ↔ n = t.repr := by
  constructor
  · intro h
    unfold ErrorCode.ofRepr at h
    split at h <;> first | (injection h with h; subst h; apply UInt16.toNat_inj.mp; assumption) | simp at h
  · rintro rfl; cases t <;> rfl

theorem be16_errorCode (c : ErrorCode) : be16 c.repr = [0, errorNumber c] := by
  cases c <;> rfl

theorem errorFromBytes_iff (b : Bytes) (p : Packet) :
    errorFromBytes b = .ok p ↔
      ∃ c m junk, Text m ∧ p = .error c m ∧ b = 0 :: errorNumber c :: (m ++ 0 :: junk) := by
  unfold errorFromBytes
  constructor
  · intro h
    split at h
    · simp at h
    · next cn hr =>
      split at h
      · simp at h
      · next code hc =>
        split at h
        · simp at h
        · next m junk hs =>
          split at h
          · next hu =>
            injection h with h
            obtain ⟨r, rfl⟩ := readU16_eq_some.mp hr
            rw [ErrorCode.ofRepr_iff] at hc
            subst hc
            simp only [be16_errorCode, List.cons_append, List.nil_append, List.drop_succ_cons,
              List.drop_zero] at hs
            obtain ⟨rfl, h0⟩ := splitNul_eq_some.mp hs
            exact ⟨code, m, junk, ⟨h0, hu⟩, h.symm, by rw [be16_errorCode]; rfl⟩
          · simp at h
  · rintro ⟨c, m, junk, ⟨h0, hu⟩, rfl, rfl⟩
    have : readU16 (0 :: errorNumber c :: (m ++ 0 :: junk)) = some c.repr := by
      have := readU16_be16 c.repr (m ++ 0 :: junk)
      rwa [be16_errorCode] at this
    rw [this]
    simp only [ErrorCode.ofRepr_iff.mpr rfl, List.drop_succ_cons, List.drop_zero]
    rw [splitNul_append h0]
    simp [hu]

theorem Except.map_ok {ε α β : Type} {f : α → β} {x : Except ε α} {y : β} :
    x.map f = .ok y ↔ ∃ a, x = .ok a ∧ f a = y := by
  cases x <;> simp [Except.map]

/-- **C03**: the decoder accepts a datagram, returning `p`, exactly when the datagram has the
RFC 1350/2347 layout of `p`. -/
theorem c03_decode_iff_wire (b : Bytes) (p : Packet) :
    Packet.fromBytes b = .ok p ↔ Wire b p := by
  constructor
  · intro h
    unfold Packet.fromBytes at h
    split at h
    · simp at h
    · next op hop =>
      obtain ⟨r, rfl⟩ := readU16_eq_some.mp hop
      simp only [be16, List.cons_append, List.nil_append, List.drop_succ_cons, List.drop_zero] at h ⊢
      cases ht : PacketType.ofRepr op.toNat with
      | none => rw [ht] at h; simp at h
      | some t =>
        rw [ht] at h
        rw [PacketType.ofRepr_iff] at ht
        subst ht
        cases t with
        | read =>
          obtain ⟨a, ha, rfl⟩ := Except.map_ok.mp h
          exact .read ((Request.fromBytes_iff _ _).mp ha)
        | write =>
          obtain ⟨a, ha, rfl⟩ := Except.map_ok.mp h
          exact .write ((Request.fromBytes_iff _ _).mp ha)
        | data =>
          simp only at h
          split at h
          · simp at h
          · next blk hb =>
            obtain ⟨r, rfl⟩ := readU16_eq_some.mp hb
            injection h with h
            subst h
            exact .data
        | ack =>
          simp only at h
          split at h
          · simp at h
          · next blk hb =>
            obtain ⟨r, rfl⟩ := readU16_eq_some.mp hb
            injection h with h
            subst h
            exact .ack
        | error =>
          obtain ⟨c, m, junk, ht, rfl, rfl⟩ := (errorFromBytes_iff _ _).mp h
          exact .error ht
        | optionalAck =>
          obtain ⟨a, ha, rfl⟩ := Except.map_ok.mp h
          exact .optionalAck ((Exts.fromBytes_iff _ _).mp ha)
  · intro h
    cases h with
    | @read b r h =>
      show (Request.fromBytes b).map Packet.read = _
      rw [(Request.fromBytes_iff _ _).mpr h]; rfl
    | @write b r h =>
      show (Request.fromBytes b).map Packet.write = _
      rw [(Request.fromBytes_iff _ _).mpr h]; rfl
    | @data blk payload =>
      show (match readU16 (be16 blk ++ payload) with
        | none => Except.error PacketError.invalid
        | some b => Except.ok (Packet.data b ((be16 blk ++ payload).drop 2))) = _
      rw [readU16_be16]; rfl
    | @ack blk junk =>
      show (match readU16 (be16 blk ++ junk) with
        | none => Except.error PacketError.invalid
        | some b => Except.ok (Packet.ack b)) = _
      rw [readU16_be16]
    | @error c m junk h =>
      show errorFromBytes (0 :: errorNumber c :: (m ++ 0 :: junk)) = _
      exact (errorFromBytes_iff _ _).mpr ⟨_, _, _, h, rfl, rfl⟩
    | @optionalAck b e h =>
      show (Exts.fromBytes b).map Packet.optionalAck = _
      rw [(Exts.fromBytes_iff _ _).mpr h]; rfl

/-- Non-vacuity of C03: a concrete accepted request with an unknown option, and a rejected one. -/
example : Wire (0 :: 1 :: ([97] ++ 0 :: (ascii "octet" ++ 0 :: pairsWire
    [(ascii "foo", ascii "1"), (ascii "BLKSIZE", ascii "1024")])))
    (.read ⟨[97], Exts.empty.insert .blockSize (ascii "1024")⟩) := by
  refine .read ⟨_, ⟨by decide, by decide⟩, rfl, Or.inr ⟨_, [], by simp, ?_, (List.append_nil _).symm, ?_, ?_, Or.inl rfl⟩⟩
  · intro p hp
    simp at hp
    rcases hp with rfl | rfl <;> (refine ⟨⟨?_, ?_⟩, ⟨?_, ?_⟩⟩ <;> decide)
  · funext k; cases k <;> decide
  · intro h; exact absurd (h .timeout) (by decide)

/-- **C03** (rejection clauses): no accepted datagram has an opcode outside 1..6, or is shorter
than four bytes. -/
theorem c03_rejects (b : Bytes) (p : Packet) (h : Packet.fromBytes b = .ok p) :
    ∃ op rest, b = 0 :: op :: rest ∧ 1 ≤ op.toNat ∧ op.toNat ≤ 6 ∧ 2 ≤ rest.length := by
  rw [c03_decode_iff_wire] at h
  cases h with
  | @read b r h =>
    obtain ⟨opts, _, rfl, _⟩ := h
    exact ⟨1, _, rfl, by decide, by decide, by simp; omega⟩
  | @write b r h =>
    obtain ⟨opts, _, rfl, _⟩ := h
    exact ⟨2, _, rfl, by decide, by decide, by simp; omega⟩
  | data => exact ⟨3, _, rfl, by decide, by decide, by simp⟩
  | ack => exact ⟨4, _, rfl, by decide, by decide, by simp⟩
  | error => exact ⟨5, _, rfl, by decide, by decide, by simp⟩
  | @optionalAck b e h =>
    obtain ⟨ps, junk, hne, _, rfl, _⟩ := h
    cases ps with
    | nil => exact absurd rfl hne
    | cons p ps => exact ⟨6, _, rfl, by decide, by decide, by simp [pairsWire]; omega⟩

example : ∃ p, Packet.fromBytes [0, 4, 1, 2] = .ok p := ⟨_, rfl⟩

/-! ### C01 round trip -/

/-- The pairs the encoder emits. -/
def wirePairs (e : Exts) : List (Bytes × Bytes) := e.entries.map fun kv => (kv.1.name, kv.2)

theorem foldl_pairs (l : List (Extension × Bytes)) (acc : Bytes) :
    l.foldl (fun v kv => v ++ (kv.1.name ++ [0] ++ kv.2 ++ [0])) acc =
      acc ++ pairsWire (l.map fun kv => (kv.1.name, kv.2)) := by
  induction l generalizing acc with
  | nil => simp [pairsWire]
  | cons a r ih => rw [List.foldl_cons, ih]; simp [pairsWire]

theorem Exts.toBytes_eq (e : Exts) : e.toBytes = pairsWire (wirePairs e) := by
  rw [Exts.toBytes, foldl_pairs]; rfl

theorem denotes_filterMap (e : Exts) (ks : List Extension) (hn : ks.Nodup) (k : Extension) :
    denotes ((ks.filterMap fun k => (e k).map fun v => (k, v)).map fun kv => (kv.1.name, kv.2)) k
      = if k ∈ ks then e k else none := by
  induction ks with
  | nil => simp [denotes]
  | cons a r ih =>
    rw [List.nodup_cons] at hn
    have ih := ih hn.2
    cases ha : e a with
    | none =>
      simp only [List.filterMap_cons, ha, Option.map_none, ih, List.mem_cons]
      by_cases hk : k = a
      · subst hk; simp [hn.1, ha]
      · simp [hk]
    | some v =>
      simp only [List.filterMap_cons, ha, Option.map_some, List.map_cons, denotes, ih,
        List.mem_cons, Extension.ofName_name]
      by_cases hk : k = a
      · subst hk; simp [hn.1, ha]
      · by_cases hm : k ∈ r
        · simp [hk, hm, Ne.symm hk]
          cases e k <;> rfl
        · simp [hk, hm, Ne.symm hk]

theorem denotes_wirePairs (e : Exts) : denotes (wirePairs e) = e := by
  funext k
  have := denotes_filterMap e Extension.all Extension.all_nodup k
  rw [if_pos (Extension.mem_all k)] at this
  exact this

theorem wirePairs_length (e : Exts) : (wirePairs e).length ≤ 8 := by
  simp only [wirePairs, List.length_map, Exts.entries]
  exact Nat.le_trans (List.length_filterMap_le _ _) (by decide)

/-- The number of known options present is at most the number of pairs. -/
theorem full_length (ps : List (Bytes × Bytes)) (h : Full ps) : 8 ≤ ps.length := by
  have key : ∀ (ps : List (Bytes × Bytes)),
      (Extension.all.filter fun k => (denotes ps k).isSome).length ≤ ps.length := by
    intro ps
    induction ps with
    | nil => simp [denotes]
    | cons p r ih =>
      obtain ⟨n, v⟩ := p
      have hsub : (Extension.all.filter fun k => (denotes ((n, v) :: r) k).isSome).length ≤
          (Extension.all.filter fun k => (denotes r k).isSome).length +
          (Extension.all.filter fun k => decide (Extension.ofName n = some k)).length := by
        generalize Extension.all = l
        induction l with
        | nil => simp
        | cons a l ih =>
          simp only [List.filter_cons]
          by_cases hd : (denotes r a).isSome = true
          · have : (denotes ((n, v) :: r) a).isSome = true := by
              simp only [denotes]; split <;> simp_all
            simp only [hd, this, if_true, List.length_cons]
            split <;> (try simp only [List.length_cons]) <;> omega
          · by_cases hn : Extension.ofName n = some a
            · simp only [hn, decide_true, if_true, List.length_cons] at ih ⊢
              simp only [if_neg hd]
              split <;> (try simp only [List.length_cons]) <;> omega
            · have : ¬ (denotes ((n, v) :: r) a).isSome = true := by
                simp only [denotes, hn, if_false]; split <;> simp_all
              simp only [hd, hn, this, decide_false]
              simpa using ih
      have h1 : (Extension.all.filter fun k => decide (Extension.ofName n = some k)).length ≤ 1 := by
        cases Extension.ofName n with
        | none => decide
        | some k => cases k <;> decide
      simp only [List.length_cons]
      omega
  have := key ps
  have hall : (Extension.all.filter fun k => (denotes ps k).isSome) = Extension.all := by
    rw [List.filter_eq_self]; intro a _; exact h a
  rw [hall] at this
  exact this

theorem optionList_of_exts (e : Exts) (hne : ∃ k, (e k).isSome)
    (hv : ∀ k v, e k = some v → Text v) : OptionList e.toBytes e := by
  refine ⟨wirePairs e, [], ?_, ?_, ?_, (denotes_wirePairs e).symm, ?_, Or.inl rfl⟩
  · intro h
    obtain ⟨k, hk⟩ := hne
    have := denotes_wirePairs e
    rw [h] at this
    rw [← this] at hk
    simp [denotes] at hk
  · intro p hp
    simp only [wirePairs, Exts.entries, List.mem_map, List.mem_filterMap, Option.map_eq_some_iff] at hp
    obtain ⟨kv, ⟨k, _, v, hkv, rfl⟩, rfl⟩ := hp
    exact ⟨Extension.name_text k, hv k v hkv⟩
  · rw [Exts.toBytes_eq]; simp
  · intro h
    have h1 := full_length _ h
    have h2 := wirePairs_length e
    simp at h1
    omega

theorem requestBody_of_request (r : Request) (hn : Text r.fileName)
    (hv : ∀ k v, r.exts k = some v → Text v) : RequestBody r.toBytes r := by
  refine ⟨r.exts.toBytes, hn, by simp [Request.toBytes], ?_⟩
  by_cases h : ∃ k, (r.exts k).isSome
  · exact Or.inr (optionList_of_exts _ h hv)
  · left
    have he : r.exts = fun _ => none := by
      funext k
      cases hk : r.exts k with
      | none => rfl
      | some v => exact absurd ⟨k, by simp [hk]⟩ h
    refine ⟨?_, he⟩
    rw [he]; decide

/-- Encoding produces a datagram denoting the packet. -/
theorem toBytes_wire (p : Packet) (h : Sendable p) : Wire p.toBytes p := by
  cases p with
  | read r => exact .read (requestBody_of_request r h.1 h.2)
  | write r => exact .write (requestBody_of_request r h.1 h.2)
  | data b d => exact .data
  | ack b => exact .ack (junk := [])
  | error c m =>
    have : (Packet.error c m).toBytes = 0 :: 5 :: 0 :: errorNumber c :: (m ++ 0 :: []) := by
      simp only [Packet.toBytes, be16_errorCode]; rfl
    rw [this]
    exact .error h
  | optionalAck e => exact .optionalAck (optionList_of_exts e h.1 h.2)

/-- **C01**: decoding an encoded packet returns that packet. -/
theorem c01_round_trip (p : Packet) (h : Sendable p) : Packet.fromBytes p.toBytes = .ok p :=
  (c03_decode_iff_wire _ _).mpr (toBytes_wire p h)

/-- Non-vacuity: a write request with two options satisfies the hypothesis. -/
example : Sendable (.write ⟨ascii "dir/file", (Exts.empty.insert .blockSize (ascii "1024")).insert
    .windowSize (ascii "4")⟩) := by
  refine ⟨⟨by decide, by decide⟩, ?_⟩
  intro k v h
  cases k <;> simp [Exts.insert, Exts.empty] at h <;> subst h <;> (constructor <;> decide)

/-- The hypothesis on option acks is needed: an option ack without options is encoded to two bytes
which the decoder rejects. -/
theorem c01_empty_option_ack_not_decodable :
    Packet.fromBytes (Packet.optionalAck Exts.empty).toBytes = .error .invalid := by rfl

/-- The encoder is injective on sendable packets: two different packets never look the same on
the wire. -/
theorem c01_encoding_injective (p q : Packet) (hp : Sendable p) (hq : Sendable q)
    (h : p.toBytes = q.toBytes) : p = q := by
  have h1 := c01_round_trip p hp
  rw [h, c01_round_trip q hq] at h1
  injection h1 with h1
  exact h1.symm

/-! ### C02 encoding into a buffer -/

/-- What a correct in-place encoder does with the encoding `enc`. -/
def Spec.placed (enc buf : Bytes) : Option (Bytes × Nat) :=
  if enc.length ≤ buf.length then some (enc ++ buf.drop enc.length, enc.length) else none

/-- Placing `enc` at index `i`, keeping everything else. -/
def placedAt (enc buf : Bytes) (i : Nat) : Option (Bytes × Nat) :=
  if i + enc.length ≤ buf.length then
    some (buf.take i ++ enc ++ buf.drop (i + enc.length), i + enc.length) else none

theorem writeBytes_placedAt (enc buf d : Bytes) (i : Nat) :
    ((placedAt enc buf i).bind fun (b, s) => writeBytes b d s) = placedAt (enc ++ d) buf i := by
  unfold placedAt writeBytes
  by_cases h : i + enc.length ≤ buf.length
  · rw [if_pos h]
    have hlen : (buf.take i ++ enc ++ buf.drop (i + enc.length)).length = buf.length := by
      simp; omega
    simp only [Option.bind_some]
    rw [hlen, List.length_append]
    by_cases h2 : i + enc.length + d.length ≤ buf.length
    · rw [if_pos h2, if_pos (by omega)]
      have hl1 : (buf.take i ++ enc).length = i + enc.length := by simp; omega
      congr 2
      · rw [← Nat.add_assoc]
        rw [List.take_left' hl1, ← List.append_assoc]
        congr 1
        rw [List.drop_append, hl1, List.drop_eq_nil_of_le (by omega)]
        simp only [List.nil_append, List.drop_drop]
        congr 1; omega
      · omega
    · rw [if_neg h2, if_neg (by omega)]
  · rw [if_neg h, if_neg (by simp; omega)]; rfl

theorem writeBytes_eq_placedAt (buf d : Bytes) (i : Nat) : writeBytes buf d i = placedAt d buf i := rfl

theorem placed_eq (enc buf : Bytes) : Spec.placed enc buf = placedAt enc buf 0 := by
  simp [Spec.placed, placedAt]

theorem extsToBufferLoop_placedAt (l : List (Extension × Bytes)) (enc buf : Bytes) (i : Nat) :
    ((placedAt enc buf i).bind fun (b, s) => extsToBufferLoop l b s) =
      placedAt (enc ++ pairsWire (l.map fun kv => (kv.1.name, kv.2))) buf i := by
  induction l generalizing enc with
  | nil => cases h : placedAt enc buf i <;> simp [extsToBufferLoop, pairsWire, h]
  | cons a r ih =>
    obtain ⟨k, v⟩ := a
    have e1 : enc ++ pairsWire (((k, v) :: r).map fun kv => (kv.1.name, kv.2)) =
        (((enc ++ k.name) ++ [0]) ++ v) ++ [0] ++ pairsWire (r.map fun kv => (kv.1.name, kv.2)) := by
      simp [pairsWire]
    rw [e1, ← ih, ← writeBytes_placedAt, ← writeBytes_placedAt, ← writeBytes_placedAt,
      ← writeBytes_placedAt]
    cases placedAt enc buf i with
    | none => rfl
    | some x =>
      obtain ⟨b, s⟩ := x
      simp only [Option.bind_some, extsToBufferLoop, Option.bind_eq_bind]
      cases writeBytes b k.name s with
      | none => rfl
      | some x =>
        simp only [Option.bind_some]
        cases writeBytes x.1 [0] x.2 with
        | none => rfl
        | some x =>
          simp only [Option.bind_some]
          cases writeBytes x.1 v x.2 with
          | none => rfl
          | some x => rfl

theorem Exts.toBuffer_eq (e : Exts) (buf : Bytes) : e.toBuffer buf = Spec.placed e.toBytes buf := by
  have h := extsToBufferLoop_placedAt e.entries [] buf 0
  have h0 : placedAt [] buf 0 = some (buf, 0) := by simp [placedAt]
  rw [h0] at h
  rw [placed_eq, Exts.toBytes_eq]
  exact h

/-- Running a correct encoder for `x` on the tail behind `enc` places `enc ++ x`. -/
theorem onTail_placed (enc x buf : Bytes) (f : Bytes → Option (Bytes × Nat))
    (hf : ∀ b, f b = Spec.placed x b) :
    ((Spec.placed enc buf).bind fun (b, s) => onTail b s f) = Spec.placed (enc ++ x) buf := by
  unfold Spec.placed onTail
  by_cases h : enc.length ≤ buf.length
  · rw [if_pos h]
    simp only [Option.bind_some, List.length_append, hf]
    rw [if_pos (by simp)]
    rw [List.drop_left' rfl, List.take_left' rfl]
    unfold Spec.placed
    simp only [List.length_drop, List.drop_drop]
    by_cases h2 : enc.length + x.length ≤ buf.length
    · rw [if_pos (by omega), if_pos h2]
      simp
    · rw [if_neg (by omega), if_neg h2]
  · rw [if_neg h, if_neg (by simp; omega)]; rfl

theorem writeBytes_placed (enc buf d : Bytes) :
    ((Spec.placed enc buf).bind fun (b, s) => writeBytes b d s) = Spec.placed (enc ++ d) buf := by
  rw [placed_eq, placed_eq, writeBytes_placedAt]

theorem writeBytes_zero (buf d : Bytes) : writeBytes buf d 0 = Spec.placed d buf := by
  rw [placed_eq]; rfl

theorem Request.toBuffer_eq (r : Request) (buf : Bytes) :
    r.toBuffer buf = Spec.placed r.toBytes buf := by
  rw [Request.toBytes, ← onTail_placed _ _ _ _ (Exts.toBuffer_eq r.exts), ← writeBytes_placed,
    ← writeBytes_placed, ← writeBytes_placed, ← writeBytes_zero]
  unfold Request.toBuffer
  cases writeBytes buf r.fileName 0 with
  | none => rfl
  | some x =>
    simp only [Option.bind_eq_bind, Option.bind_some]
    cases writeBytes x.1 [0] x.2 with
    | none => rfl
    | some x =>
      simp only [Option.bind_some]
      cases writeBytes x.1 (ascii "octet") x.2 with
      | none => rfl
      | some x => rfl

theorem dataToBuffer_eq (b : UInt16) (d buf : Bytes) :
    dataToBuffer b d buf = Spec.placed (be16 b ++ d) buf := by
  rw [← writeBytes_placed, ← writeBytes_zero]; rfl

theorem errorToBuffer_eq (c : ErrorCode) (m buf : Bytes) :
    errorToBuffer c m buf = Spec.placed (be16 c.repr ++ m ++ [0]) buf := by
  rw [← writeBytes_placed, ← writeBytes_placed, ← writeBytes_zero]
  unfold errorToBuffer
  cases writeBytes buf (be16 c.repr) 0 <;> rfl

/-- **C02**: encoding into a caller supplied buffer succeeds exactly when the encoding fits; then
the buffer holds the encoding followed by its untouched old tail and the returned size is the
length of the encoding. -/
theorem c02_to_buffer (p : Packet) (buf : Bytes) :
    p.toBuffer buf =
      if p.toBytes.length ≤ buf.length then
        some (p.toBytes ++ buf.drop p.toBytes.length, p.toBytes.length) else none := by
  show _ = Spec.placed p.toBytes buf
  have key : ∀ (body : Bytes) (f : Bytes → Option (Bytes × Nat)) (op : Bytes),
      (∀ b, f b = Spec.placed body b) →
      ((writeBytes buf op 0).bind fun (b, s) => onTail b s f) = Spec.placed (op ++ body) buf := by
    intro body f op hf
    rw [writeBytes_zero]; exact onTail_placed _ _ _ _ hf
  cases p with
  | read r => exact key _ _ _ r.toBuffer_eq
  | write r => exact key _ _ _ r.toBuffer_eq
  | data b d => exact key _ _ _ (dataToBuffer_eq b d)
  | ack b => exact key _ _ _ (fun buf => writeBytes_zero buf _)
  | error c m => exact key _ _ _ (errorToBuffer_eq c m)
  | optionalAck e => exact key _ _ _ e.toBuffer_eq

/-- Both outcomes of C02 occur: a five byte packet in buffers of five and of four bytes. -/
example : (Packet.data 7 [9]).toBuffer [1, 2, 3, 4, 5, 6] = some ([0, 3, 0, 7, 9, 6], 5) ∧
    (Packet.data 7 [9]).toBuffer [1, 2, 3, 4] = none := by decide

/-- `prepend_data_header` writes exactly the header of the data packet: payload already at offset 4
plus header equals the encoded packet. -/
theorem c02_prepend_data_header (block : UInt16) (hdr payload : Bytes) (h : hdr.length = 4) :
    prependDataHeader block (hdr ++ payload) = some ((Packet.data block payload).toBytes, 4) := by
  have : prependDataHeader block (hdr ++ payload) =
      Spec.placed (be16 PacketType.data.repr ++ be16 block) (hdr ++ payload) := by
    rw [← writeBytes_placed, ← writeBytes_zero]; rfl
  rw [this]
  simp [Spec.placed, h, Packet.toBytes, List.drop_left' h]

example : ∃ h : Bytes, h.length = 4 := ⟨[0, 0, 0, 0], rfl⟩

/-! ### C04 unknown options, C42 repeated options -/

theorem denotes_insert_unknown (ps qs us : List (Bytes × Bytes))
    (hu : ∀ p ∈ us, Extension.ofName p.1 = none) : denotes (ps ++ us ++ qs) = denotes (ps ++ qs) := by
  funext k
  have hus : denotes us k = none := by
    clear ps qs
    induction us with
    | nil => rfl
    | cons p r ih =>
      obtain ⟨n, v⟩ := p
      have h1 := hu (n, v) (by simp)
      simp only at h1
      rw [denotes, ih (fun p hp => hu p (by simp [hp])), h1]
      simp
  rw [denotes_append, denotes_append ps us, hus, denotes_append]

/-- **C04**: inserting any number of pairs with unknown names at any position of the option list
does not change the decoded option set (the list being well formed, and not yet containing all
eight known options before its last pair). -/
theorem c04_unknown_options_ignored (ps qs us : List (Bytes × Bytes))
    (hu : ∀ p ∈ us, Extension.ofName p.1 = none) (hok : PairsOk (ps ++ us ++ qs))
    (hne : ps ++ qs ≠ []) (hnf : ¬ Full (ps ++ qs)) :
    Exts.fromBytes (pairsWire (ps ++ us ++ qs)) = Exts.fromBytes (pairsWire (ps ++ qs)) ∧
    Exts.fromBytes (pairsWire (ps ++ qs)) = .ok (denotes (ps ++ qs)) := by
  have hd := denotes_insert_unknown ps qs us hu
  have hnf2 : ∀ l : List (Bytes × Bytes), ¬ Full l → ¬ Full l.dropLast := by
    intro l hl hf
    apply hl
    intro k
    by_cases hl0 : l = []
    · subst hl0; exact hf k
    · have := hf k
      rw [← List.dropLast_concat_getLast hl0, denotes_append]
      split
      · rfl
      · exact this
  have h2 : Exts.fromBytes (pairsWire (ps ++ qs)) = .ok (denotes (ps ++ qs)) := by
    rw [Exts.fromBytes_iff]
    refine ⟨ps ++ qs, [], hne, ?_, by simp, rfl, hnf2 _ hnf, Or.inl rfl⟩
    intro p hp
    apply hok
    simp only [List.mem_append] at hp ⊢
    rcases hp with hp | hp <;> simp [hp]
  refine ⟨?_, h2⟩
  rw [h2, Exts.fromBytes_iff]
  refine ⟨ps ++ us ++ qs, [], ?_, hok, by simp, hd.symm, ?_, Or.inl rfl⟩
  · intro h
    simp at h hne
    exact hne h.1 h.2.2
  · apply hnf2
    intro hf
    apply hnf
    intro k
    have := hf k
    rwa [hd] at this

/-- Non-vacuity of C04: an unknown option between two known ones. -/
example : Exts.fromBytes (pairsWire [(ascii "tsize", ascii "5"), (ascii "rollover", ascii "0"),
      (ascii "blksize", ascii "600")]) =
    .ok ((Exts.empty.insert .transferSize (ascii "5")).insert .blockSize (ascii "600")) := by
  rw [Exts.fromBytes_iff]
  refine ⟨_, [], by simp, ?_, (List.append_nil _).symm, ?_, ?_, Or.inl rfl⟩
  · intro p hp
    simp at hp
    rcases hp with rfl | rfl | rfl <;> (refine ⟨⟨?_, ?_⟩, ⟨?_, ?_⟩⟩ <;> decide)
  · funext k; cases k <;> decide
  · intro h; exact absurd (h .timeout) (by decide)

/-- **C42**: when an option is repeated, the value of the last occurrence (in either letter case)
is the one the receiver uses. -/
theorem c42_last_option_wins (ps qs : List (Bytes × Bytes)) (n v : Bytes) (k : Extension) (e : Exts)
    (hk : Extension.ofName n = some k) (hq : ∀ p ∈ qs, Extension.ofName p.1 ≠ some k)
    (hok : PairsOk (ps ++ (n, v) :: qs)) (hnf : ¬ Full (ps ++ (n, v) :: qs))
    (h : Exts.fromBytes (pairsWire (ps ++ (n, v) :: qs)) = .ok e) : e k = some v := by
  have hc := c04_unknown_options_ignored (ps ++ (n, v) :: qs) [] [] (by simp) (by simpa using hok)
    (by simp) (by simpa using hnf)
  have h2 := hc.2
  rw [List.append_nil] at h2
  rw [h2] at h
  injection h with h
  rw [← h]
  have hqs : denotes qs k = none := by
    clear hc h2 h hok hnf
    induction qs with
    | nil => rfl
    | cons p r ih =>
      obtain ⟨n', v'⟩ := p
      have h1 := hq (n', v') (by simp)
      rw [denotes, ih (fun p hp => hq p (by simp [hp])), if_neg h1]
  rw [denotes_append, denotes, hqs, if_pos hk]

example : Exts.fromBytes (pairsWire [(ascii "tsize", ascii "5"), (ascii "TSIZE", ascii "6")]) =
    .ok (Exts.empty.insert .transferSize (ascii "6")) := by
  rw [Exts.fromBytes_iff]
  refine ⟨_, [], by simp, ?_, (List.append_nil _).symm, ?_, ?_, Or.inl rfl⟩
  · intro p hp
    simp at hp
    rcases hp with rfl | rfl <;> (refine ⟨⟨?_, ?_⟩, ⟨?_, ?_⟩⟩ <;> decide)
  · funext k; cases k <;> decide
  · intro h; exact absurd (h .timeout) (by decide)

end Tftp

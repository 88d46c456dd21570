import Verif.PacketProps
import Verif.ErrorText
/-
C89: the packet decoder of builds without an allocator. There the strings of a packet have a fixed capacity (src/lib.rs:27-42): a string
which does not fit makes `parse` fail. A file name or an error text which is too long makes the whole packet invalid; an option value which is
too long makes the option disappear.
-/
namespace Tftp
open Spec

/-- src/config.rs:57 `MAX_FILE_PATH_SIZE` (src/lib.rs:41 `FilePath`). -/
def filePathCap : Nat := 150
/-- src/config.rs:56 `MAX_DEFAULT_STRING_SIZE` (src/lib.rs:36 `DefaultString`). -/
def defaultStringCap : Nat := 140
/-- src/config.rs:55 `MAX_EXTENSION_VALUE_SIZE` (src/lib.rs:38-39 `ExtensionValue`). -/
def extensionValueCap : Nat := 88
/-- src/config.rs:13, 16 `MAX_BUFFER_SIZE` (src/lib.rs:29-30 `PacketBlock`). -/
def packetBlockCap : Nat := 1429

/-- src/packet.rs:296-298 `if let (Ok(extension), Ok(value)) = (name.parse(), value.parse())`: `value.parse()` of a `heapless::String` fails
when the value does not fit. -/
def Exts.insertFit (e : Exts) (name value : Bytes) : Exts :=
  if value.length ≤ extensionValueCap then e.insertNamed name value else e

/-- src/packet.rs:278-306, the loop of `OptionalAck::from_bytes`, with fixed capacity values; the first argument bounds the iterations as in
`extLoop`. -/
def extLoopIn : Nat → Bytes → Exts → Except PacketError Exts
  | 0, _, _ => .error .invalid
  | fuel + 1, rest, e =>
    if e.size < 8 then
      match splitNul rest with
      | none => .error .invalid
      | some (name, next) =>
        if utf8Valid name then
          match splitNul next with
          | none => .error .invalid
          | some (value, next) =>
            if utf8Valid value then
              let e := e.insertFit name value
              if next.isEmpty then .ok e else extLoopIn fuel next e
            else .error .invalidString
        else .error .invalidString
    else .ok e

/-- src/packet.rs:278-306 `OptionalAck::from_bytes`, with fixed capacity values. -/
def Exts.fromBytesIn (b : Bytes) : Except PacketError Exts := extLoopIn (b.length + 1) b Exts.empty

/-- src/packet.rs:344-373 `RequestPacket::from_bytes`, with a fixed capacity file name: `name.parse().map_err(|_| PacketError::Invalid)`. -/
def Request.fromBytesIn (b : Bytes) : Except PacketError Request :=
  match splitNul b with
  | none => .error .invalid
  | some (name, rest) =>
    if utf8Valid name then
      if name.length ≤ filePathCap then
        match splitNul rest with
        | none => .error .invalid
        | some (mode, rest) =>
          if utf8Valid mode then
            if mode = ascii "octet" then
              if rest.isEmpty then .ok ⟨name, Exts.empty⟩
              else match Exts.fromBytesIn rest with
                | .ok e => .ok ⟨name, e⟩
                | .error x => .error x
            else .error .invalidMode
          else .error .invalidString
      else .error .invalid
    else .error .invalidString

/-- src/packet.rs:514-528 `ErrorPacket::from_bytes`, with a fixed capacity message. -/
def errorFromBytesIn (b : Bytes) : Except PacketError Packet :=
  match readU16 b with
  | none => .error .invalid
  | some c =>
    match ErrorCode.ofRepr c.toNat with
    | none => .error .invalid
    | some code =>
      match splitNul (b.drop 2) with
      | none => .error .invalid
      | some (m, _) =>
        if utf8Valid m then (if m.length ≤ defaultStringCap then .ok (.error code m) else .error .invalid)
        else .error .invalidString

/-- src/packet.rs:54-68 `Packet::from_bytes` in a build without `alloc` (a data packet borrows its payload: no limit). -/
def Packet.fromBytesIn (b : Bytes) : Except PacketError Packet :=
  match readU16 b with
  | none => .error .invalid
  | some op =>
    match PacketType.ofRepr op.toNat with
    | none => .error .invalid
    | some .read => (Request.fromBytesIn (b.drop 2)).map .read
    | some .write => (Request.fromBytesIn (b.drop 2)).map .write
    | some .data =>
      match readU16 (b.drop 2) with
      | none => .error .invalid
      | some blk => .ok (.data blk ((b.drop 2).drop 2))
    | some .ack =>
      match readU16 (b.drop 2) with
      | none => .error .invalid
      | some blk => .ok (.ack blk)
    | some .error => errorFromBytesIn (b.drop 2)
    | some .optionalAck => (Exts.fromBytesIn (b.drop 2)).map .optionalAck

/-! ### Specification -/

/-- Specification: the value of the option is at most 88 bytes. -/
def Spec.shortValue (p : Bytes × Bytes) : Bool := decide (p.2.length ≤ 88)

/-- Specification: an option list as read in fixed memory: options with a value of more than 88 bytes are as if they had not been sent. -/
def Spec.ShortOptionList (b : Bytes) (e : Exts) : Prop :=
  ∃ ps junk, ps ≠ [] ∧ PairsOk ps ∧ b = pairsWire ps ++ junk ∧ e = denotes (ps.filter shortValue) ∧
    ¬ Full (ps.dropLast.filter shortValue) ∧ (junk = [] ∨ Full (ps.filter shortValue))

/-- Specification: the body of a request as read in fixed memory. -/
def Spec.ShortRequestBody (b : Bytes) (r : Request) : Prop :=
  ∃ opts, Text r.fileName ∧ r.fileName.length ≤ 150 ∧ b = r.fileName ++ 0 :: (ascii "octet" ++ 0 :: opts) ∧
    ((opts = [] ∧ r.exts = fun _ => none) ∨ ShortOptionList opts r.exts)

/-- Specification: `b` is a datagram denoting `p` as read in fixed memory. -/
inductive Spec.ShortWire : Bytes → Packet → Prop
  | read {b r} : ShortRequestBody b r → ShortWire (0 :: 1 :: b) (.read r)
  | write {b r} : ShortRequestBody b r → ShortWire (0 :: 2 :: b) (.write r)
  | data {blk payload} : ShortWire (0 :: 3 :: hi blk :: lo blk :: payload) (.data blk payload)
  | ack {blk junk} : ShortWire (0 :: 4 :: hi blk :: lo blk :: junk) (.ack blk)
  | error {code msg junk} : Text msg → msg.length ≤ 140 → ShortWire (0 :: 5 :: 0 :: errorNumber code :: (msg ++ 0 :: junk)) (.error code msg)
  | optionalAck {b e} : ShortOptionList b e → ShortWire (0 :: 6 :: b) (.optionalAck e)

/-- Specification: the strings of the packet fit into a build without an allocator. -/
def Spec.Fits : Packet → Prop
  | .read r | .write r => r.fileName.length ≤ 150 ∧ ∀ k v, r.exts k = some v → v.length ≤ 88
  | .data _ d => d.length ≤ 1425
  | .ack _ => True
  | .error _ m => m.length ≤ 140
  | .optionalAck e => ∀ k v, e k = some v → v.length ≤ 88

/-! ### The option loop -/

/-- What the loop inserts: the short options. -/
theorem applyPairs_fit (n v : Bytes) (ps : List (Bytes × Bytes)) (e : Exts) :
    applyPairs e (((n, v) :: ps).filter shortValue) = applyPairs (e.insertFit n v) (ps.filter shortValue) := by
  by_cases h : v.length ≤ 88
  · have h' : shortValue (n, v) = true := by simp [shortValue, h]
    rw [List.filter_cons_of_pos h', applyPairs, Exts.insertFit, if_pos (show v.length ≤ extensionValueCap from h)]
  · have h' : ¬ shortValue (n, v) = true := by simp only [shortValue, decide_eq_true_eq]; exact h
    rw [List.filter_cons_of_neg h', Exts.insertFit, if_neg (show ¬ v.length ≤ extensionValueCap from h)]

/-- The loop accepts exactly the option lists, and takes the short options. -/
theorem extLoopIn_iff (fuel : Nat) (b : Bytes) (e r : Exts) (hf : b.length < fuel) (he : e.size < 8) :
    extLoopIn fuel b e = .ok r ↔
      ∃ ps junk, ps ≠ [] ∧ PairsOk ps ∧ b = pairsWire ps ++ junk ∧ r = applyPairs e (ps.filter shortValue) ∧
        (applyPairs e (ps.dropLast.filter shortValue)).size < 8 ∧ (junk = [] ∨ ¬ r.size < 8) := by
  induction fuel generalizing b e with
  | zero => omega
  | succ fuel ih =>
    rw [extLoopIn, if_pos he]
    constructor
    · intro h
      split at h
      · simp at h
      · next name next hs1 =>
        split at h
        · next hu1 =>
          split at h
          · simp at h
          · next value next' hs2 =>
            split at h
            · next hu2 =>
              obtain ⟨hb, hn0⟩ := splitNul_eq_some.mp hs1
              obtain ⟨hb2, hv0⟩ := splitNul_eq_some.mp hs2
              simp only at h
              have hok : Text name ∧ Text value := ⟨⟨hn0, hu1⟩, ⟨hv0, hu2⟩⟩
              have h1 : applyPairs e ([(name, value)].filter shortValue) = e.insertFit name value := applyPairs_fit ..
              split at h
              · next hemp =>
                have hemp : next' = [] := by simpa using hemp
                injection h with h
                refine ⟨[(name, value)], [], by simp, ?_, ?_, ?_, ?_, Or.inl rfl⟩
                · intro p hp; simp at hp; subst hp; exact hok
                · simp [pairsWire, hb, hb2, hemp]
                · rw [← h, h1]
                · simpa [applyPairs] using he
              · next hne =>
                by_cases hfull : (e.insertFit name value).size < 8
                · rw [ih _ _ (by simp [hb, hb2] at hf; omega) hfull] at h
                  obtain ⟨ps, junk, hne', hpo, hbb, hr, hdl, hj⟩ := h
                  refine ⟨(name, value) :: ps, junk, by simp, ?_, ?_, ?_, ?_, hj⟩
                  · intro p hp
                    rcases List.mem_cons.mp hp with rfl | hp
                    · exact hok
                    · exact hpo p hp
                  · simp [pairsWire, hb, hb2, hbb]
                  · rw [hr, applyPairs_fit]
                  · cases ps with
                    | nil => exact absurd rfl hne'
                    | cons q qs => rw [List.dropLast_cons_of_ne_nil (by simp), applyPairs_fit]; exact hdl
                · have hf1 : 0 < fuel := by simp [hb, hb2] at hf; omega
                  obtain ⟨f', rfl⟩ : ∃ f', fuel = f' + 1 := ⟨fuel - 1, by omega⟩
                  rw [extLoopIn, if_neg hfull] at h
                  injection h with h
                  refine ⟨[(name, value)], next', by simp, ?_, ?_, ?_, ?_, Or.inr ?_⟩
                  · intro p hp; simp at hp; subst hp; exact hok
                  · simp [pairsWire, hb, hb2]
                  · rw [← h, h1]
                  · simpa [applyPairs] using he
                  · rw [← h]; exact hfull
            · simp at h
        · simp at h
    · rintro ⟨ps, junk, hne, hpo, hb, hr, hdl, hj⟩
      cases ps with
      | nil => exact absurd rfl hne
      | cons p ps =>
        obtain ⟨n, v⟩ := p
        have hok := hpo (n, v) (by simp)
        simp only [pairsWire, List.append_assoc, List.cons_append] at hb
        have hs1 : splitNul b = some (n, v ++ 0 :: (pairsWire ps ++ junk)) := by
          rw [hb]; exact splitNul_append hok.1.1
        rw [hs1]
        simp only [hok.1.2, if_true]
        rw [splitNul_append hok.2.1]
        simp only [hok.2.2, if_true]
        rw [applyPairs_fit] at hr
        cases ps with
        | nil =>
          have hpw : pairsWire [] ++ junk = junk := rfl
          rw [hpw]
          have hr : r = e.insertFit n v := hr
          by_cases hj' : junk.isEmpty = true
          · rw [if_pos hj', hr]
          · rw [if_neg hj']
            have hjf : ¬ r.size < 8 := by
              rcases hj with hj | hj
              · simp [hj] at hj'
              · exact hj
            have hf1 : 0 < fuel := by simp [hb] at hf; omega
            obtain ⟨f', rfl⟩ : ∃ f', fuel = f' + 1 := ⟨fuel - 1, by omega⟩
            rw [extLoopIn]
            rw [hr] at hjf
            rw [if_neg hjf, hr]
        | cons q qs =>
          have hne2 : ¬ (pairsWire (q :: qs) ++ junk).isEmpty = true := by
            obtain ⟨n', v'⟩ := q; simp [pairsWire]
          rw [if_neg hne2]
          rw [List.dropLast_cons_of_ne_nil (by simp), applyPairs_fit] at hdl
          have hsz : (e.insertFit n v).size < 8 := by
            rw [Exts.size_lt_iff] at hdl ⊢
            intro hall
            apply hdl
            intro k
            rw [applyPairs_eq]
            split
            · rfl
            · exact hall k
          rw [ih _ _ (by simp [hb] at hf; simp; omega) hsz]
          exact ⟨q :: qs, junk, by simp, fun p hp => hpo p (by simp [hp]), rfl, hr, hdl, hj⟩

/-- The loop bound of the model is never reached. -/
theorem extLoopIn_fuel (f₁ f₂ : Nat) (b : Bytes) (e : Exts) (h₁ : b.length < f₁) (h₂ : b.length < f₂) :
    extLoopIn f₁ b e = extLoopIn f₂ b e := by
  induction f₁ generalizing b e f₂ with
  | zero => omega
  | succ f₁ ih =>
    obtain ⟨f₂, rfl⟩ : ∃ f', f₂ = f' + 1 := ⟨f₂ - 1, by omega⟩
    rw [extLoopIn, extLoopIn]
    split
    · split
      · rfl
      · next name next hs1 =>
        split
        · split
          · rfl
          · next value next' hs2 =>
            obtain ⟨hb, -⟩ := splitNul_eq_some.mp hs1
            obtain ⟨hb2, -⟩ := splitNul_eq_some.mp hs2
            split
            · simp only
              split
              · rfl
              · apply ih <;> (simp [hb, hb2] at h₁ h₂; omega)
            · rfl
        · rfl
    · rfl

theorem Exts.fromBytesIn_iff (b : Bytes) (e : Exts) : Exts.fromBytesIn b = .ok e ↔ ShortOptionList b e := by
  rw [Exts.fromBytesIn, extLoopIn_iff _ _ _ _ (by omega) (by decide)]
  simp only [ShortOptionList, Full]
  constructor
  · rintro ⟨ps, junk, h1, h2, h3, h4, h5, h6⟩
    rw [applyPairs_empty] at h4 h5
    rw [Exts.size_lt_iff] at h5
    refine ⟨ps, junk, h1, h2, h3, h4, h5, ?_⟩
    rcases h6 with h6 | h6
    · exact Or.inl h6
    · rw [h4, Exts.size_lt_iff, Classical.not_not] at h6
      exact Or.inr h6
  · rintro ⟨ps, junk, h1, h2, h3, h4, h5, h6⟩
    refine ⟨ps, junk, h1, h2, h3, ?_, ?_, ?_⟩
    · rw [applyPairs_empty]; exact h4
    · rw [applyPairs_empty, Exts.size_lt_iff]; exact h5
    · rcases h6 with h6 | h6
      · exact Or.inl h6
      · right; rw [h4, Exts.size_lt_iff, Classical.not_not]; exact h6

theorem Request.fromBytesIn_iff (b : Bytes) (r : Request) : Request.fromBytesIn b = .ok r ↔ ShortRequestBody b r := by
  unfold Request.fromBytesIn ShortRequestBody
  constructor
  · intro h
    split at h
    · simp at h
    · next name rest hs1 =>
      split at h
      · next hu =>
        split at h
        · next hlen =>
          split at h
          · simp at h
          · next mode rest' hs2 =>
            obtain ⟨hb, hn0⟩ := splitNul_eq_some.mp hs1
            obtain ⟨hb2, _⟩ := splitNul_eq_some.mp hs2
            split at h
            · split at h
              · next hm =>
                split at h
                · next hemp =>
                  injection h with h
                  subst h
                  exact ⟨[], ⟨hn0, hu⟩, hlen, by simp_all, Or.inl ⟨rfl, rfl⟩⟩
                · split at h
                  · next e he =>
                    injection h with h
                    subst h
                    exact ⟨rest', ⟨hn0, hu⟩, hlen, by simp_all, Or.inr ((Exts.fromBytesIn_iff _ _).mp he)⟩
                  · simp at h
              · simp at h
            · simp at h
        · simp at h
      · simp at h
  · rintro ⟨opts, ⟨h0, hu⟩, hlen, hb, ho⟩
    have hs1 : splitNul b = some (r.fileName, ascii "octet" ++ 0 :: opts) := by
      rw [hb]; exact splitNul_append h0
    rw [hs1]
    simp only [hu, if_true]
    rw [if_pos (show r.fileName.length ≤ filePathCap from hlen), splitNul_append octet_text.1]
    simp only [octet_text.2, if_true]
    rcases ho with ⟨rfl, he⟩ | ho
    · obtain ⟨fn, ex⟩ := r
      simp only at he
      subst he
      rfl
    · have hne : ¬ opts.isEmpty = true := by
        obtain ⟨ps, junk, hps, -, rfl, -⟩ := ho
        cases ps with
        | nil => exact absurd rfl hps
        | cons p ps => obtain ⟨n, v⟩ := p; simp [pairsWire]
      rw [if_neg hne, (Exts.fromBytesIn_iff _ _).mpr ho]

theorem errorFromBytesIn_iff (b : Bytes) (p : Packet) :
    errorFromBytesIn b = .ok p ↔
      ∃ c m junk, Text m ∧ m.length ≤ 140 ∧ p = .error c m ∧ b = 0 :: errorNumber c :: (m ++ 0 :: junk) := by
  unfold errorFromBytesIn
  constructor
  · intro h
    split at h
    · simp at h
    · next cn hr =>
      split at h
      · simp at h
      · next code hc =>
        split at h
        · simp at h
        · next m junk hs =>
          split at h
          · next hu =>
            split at h
            · next hlen =>
              injection h with h
              obtain ⟨r, rfl⟩ := readU16_eq_some.mp hr
              rw [ErrorCode.ofRepr_iff] at hc
              subst hc
              simp only [be16_errorCode, List.cons_append, List.nil_append, List.drop_succ_cons,
                List.drop_zero] at hs
              obtain ⟨rfl, h0⟩ := splitNul_eq_some.mp hs
              exact ⟨code, m, junk, ⟨h0, hu⟩, hlen, h.symm, by rw [be16_errorCode]; rfl⟩
            · simp at h
          · simp at h
  · rintro ⟨c, m, junk, ⟨h0, hu⟩, hlen, rfl, rfl⟩
    have : readU16 (0 :: errorNumber c :: (m ++ 0 :: junk)) = some c.repr := by
      have := readU16_be16 c.repr (m ++ 0 :: junk)
      rwa [be16_errorCode] at this
    rw [this]
    simp only [ErrorCode.ofRepr_iff.mpr rfl, List.drop_succ_cons, List.drop_zero]
    rw [splitNul_append h0]
    simp only [hu, if_true]
    rw [if_pos (show m.length ≤ defaultStringCap from hlen)]

/-- **C89**: in a build without an allocator a datagram is accepted as `p` exactly when it has the layout of `p`, its file name is at most 150
bytes and its error text at most 140; options with a value of more than 88 bytes do not count. -/
theorem c89_decode (b : Bytes) (p : Packet) : Packet.fromBytesIn b = .ok p ↔ ShortWire b p := by
  constructor
  · intro h
    unfold Packet.fromBytesIn at h
    split at h
    · simp at h
    · next op hop =>
      obtain ⟨r, rfl⟩ := readU16_eq_some.mp hop
      simp only [be16, List.cons_append, List.nil_append, List.drop_succ_cons, List.drop_zero] at h ⊢
      cases ht : PacketType.ofRepr op.toNat with
      | none => rw [ht] at h; simp at h
      | some t =>
        rw [ht] at h
        rw [PacketType.ofRepr_iff] at ht
        subst ht
        cases t with
        | read =>
          obtain ⟨a, ha, rfl⟩ := Except.map_ok.mp h
          exact .read ((Request.fromBytesIn_iff _ _).mp ha)
        | write =>
          obtain ⟨a, ha, rfl⟩ := Except.map_ok.mp h
          exact .write ((Request.fromBytesIn_iff _ _).mp ha)
        | data =>
          simp only at h
          split at h
          · simp at h
          · next blk hb =>
            obtain ⟨r, rfl⟩ := readU16_eq_some.mp hb
            injection h with h
            subst h
            exact .data
        | ack =>
          simp only at h
          split at h
          · simp at h
          · next blk hb =>
            obtain ⟨r, rfl⟩ := readU16_eq_some.mp hb
            injection h with h
            subst h
            exact .ack
        | error =>
          obtain ⟨c, m, junk, ht, hl, rfl, rfl⟩ := (errorFromBytesIn_iff _ _).mp h
          exact .error ht hl
        | optionalAck =>
          obtain ⟨a, ha, rfl⟩ := Except.map_ok.mp h
          exact .optionalAck ((Exts.fromBytesIn_iff _ _).mp ha)
  · intro h
    cases h with
    | @read b r h =>
      show (Request.fromBytesIn b).map Packet.read = _
      rw [(Request.fromBytesIn_iff _ _).mpr h]; rfl
    | @write b r h =>
      show (Request.fromBytesIn b).map Packet.write = _
      rw [(Request.fromBytesIn_iff _ _).mpr h]; rfl
    | @data blk payload =>
      show (match readU16 (be16 blk ++ payload) with
        | none => Except.error PacketError.invalid
        | some b => Except.ok (Packet.data b ((be16 blk ++ payload).drop 2))) = _
      rw [readU16_be16]; rfl
    | @ack blk junk =>
      show (match readU16 (be16 blk ++ junk) with
        | none => Except.error PacketError.invalid
        | some b => Except.ok (Packet.ack b)) = _
      rw [readU16_be16]
    | @error c m junk h hl =>
      show errorFromBytesIn (0 :: errorNumber c :: (m ++ 0 :: junk)) = _
      exact (errorFromBytesIn_iff _ _).mpr ⟨_, _, _, h, hl, rfl, rfl⟩
    | @optionalAck b e h =>
      show (Exts.fromBytesIn b).map Packet.optionalAck = _
      rw [(Exts.fromBytesIn_iff _ _).mpr h]; rfl

/-! ### What follows -/

theorem denotes_mem {ps : List (Bytes × Bytes)} {k : Extension} {v : Bytes} (h : denotes ps k = some v) :
    ∃ n, (n, v) ∈ ps := by
  induction ps with
  | nil => simp [denotes] at h
  | cons p r ih =>
    obtain ⟨n, w⟩ := p
    rw [denotes] at h
    cases hd : denotes r k with
    | some x =>
      rw [hd] at h
      simp only [Option.some.injEq] at h
      subst h
      obtain ⟨m, hm⟩ := ih hd
      exact ⟨m, List.mem_cons_of_mem _ hm⟩
    | none =>
      rw [hd] at h
      simp only at h
      split at h
      · simp only [Option.some.injEq] at h; subst h; exact ⟨n, List.mem_cons_self ..⟩
      · simp at h

theorem shortOptions_fit {b : Bytes} {e : Exts} (h : ShortOptionList b e) :
    ∀ k v, e k = some v → v.length ≤ 88 ∧ Text v := by
  obtain ⟨ps, junk, -, hok, -, rfl, -⟩ := h
  intro k v hk
  obtain ⟨n, hn⟩ := denotes_mem hk
  obtain ⟨hm, hs⟩ := List.mem_filter.mp hn
  exact ⟨by simpa [shortValue] using hs, (hok _ hm).2⟩

/-- **C89**: whatever is decoded fits (a payload: when the datagram is at most 1429 bytes). -/
theorem c89_fits (b : Bytes) (p : Packet) (hb : b.length ≤ 1429) (h : Packet.fromBytesIn b = .ok p) : Fits p := by
  rw [c89_decode] at h
  cases h with
  | read h =>
    obtain ⟨opts, -, hl, -, ho⟩ := h
    refine ⟨hl, fun k v hk => ?_⟩
    rcases ho with ⟨-, he⟩ | ho
    · rw [he] at hk; simp at hk
    · exact (shortOptions_fit ho k v hk).1
  | write h =>
    obtain ⟨opts, -, hl, -, ho⟩ := h
    refine ⟨hl, fun k v hk => ?_⟩
    rcases ho with ⟨-, he⟩ | ho
    · rw [he] at hk; simp at hk
    · exact (shortOptions_fit ho k v hk).1
  | data => simp only [Fits]; simp at hb; omega
  | ack => trivial
  | error _ hl => exact hl
  | optionalAck h => exact fun k v hk => (shortOptions_fit h k v hk).1

theorem filter_wirePairs {e : Exts} (h : ∀ k v, e k = some v → v.length ≤ 88) : (wirePairs e).filter shortValue = wirePairs e := by
  rw [List.filter_eq_self]
  intro p hp
  obtain ⟨kv, hkv, rfl⟩ := List.mem_map.mp hp
  obtain ⟨k, v⟩ := kv
  obtain ⟨k', -, hk⟩ := List.mem_filterMap.mp hkv
  cases he : e k' with
  | none => rw [he] at hk; simp at hk
  | some w =>
    rw [he] at hk
    simp only [Option.map_some, Option.some.injEq, Prod.mk.injEq] at hk
    obtain ⟨rfl, rfl⟩ := hk
    simpa [shortValue] using h _ _ he

theorem shortOptions_of_exts {e : Exts} (hs : ∀ k v, e k = some v → v.length ≤ 88) 
    (hne : ∃ k, (e k).isSome) (hv : ∀ k v, e k = some v → Text v) : ShortOptionList e.toBytes e := by
  refine ⟨wirePairs e, [], ?_, ?_, ?_, ?_, ?_, Or.inl rfl⟩
  · intro h
    obtain ⟨k, hk⟩ := hne
    have := denotes_wirePairs e
    rw [h] at this
    rw [← this] at hk
    simp [denotes] at hk
  · intro p hp
    simp only [wirePairs, Exts.entries, List.mem_map, List.mem_filterMap, Option.map_eq_some_iff] at hp
    obtain ⟨kv, ⟨k, _, v, hkv, rfl⟩, rfl⟩ := hp
    exact ⟨Extension.name_text k, hv k v hkv⟩
  · rw [Exts.toBytes_eq]; simp
  · rw [filter_wirePairs hs, denotes_wirePairs]
  · intro h
    have h1 := full_length _ h
    have h2 := wirePairs_length e
    have h3 := List.length_filter_le shortValue (wirePairs e).dropLast
    simp only [List.length_dropLast] at h3
    omega

theorem shortRequest_of_request (r : Request) (hn : Text r.fileName) (hl : r.fileName.length ≤ 150)
    (hs : ∀ k v, r.exts k = some v → v.length ≤ 88) (hv : ∀ k v, r.exts k = some v → Text v) : ShortRequestBody r.toBytes r := by
  refine ⟨r.exts.toBytes, hn, hl, by simp [Request.toBytes], ?_⟩
  by_cases h : ∃ k, (r.exts k).isSome
  · exact Or.inr (shortOptions_of_exts hs h hv)
  · left
    have he : r.exts = fun _ => none := by
      funext k
      cases hk : r.exts k with
      | none => rfl
      | some v => exact absurd ⟨k, by simp [hk]⟩ h
    refine ⟨?_, he⟩
    rw [he]; decide

/-- **C89**: builds with and without an allocator understand each other: every packet that fits is read back by the fixed decoder. -/
theorem c89_round_trip (p : Packet) (h : Sendable p) (hf : Fits p) : Packet.fromBytesIn p.toBytes = .ok p := by
  rw [c89_decode]
  cases p with
  | read r => exact .read (shortRequest_of_request r h.1 hf.1 hf.2 h.2)
  | write r => exact .write (shortRequest_of_request r h.1 hf.1 hf.2 h.2)
  | data b d => exact .data
  | ack b => exact .ack (junk := [])
  | error c m =>
    have : (Packet.error c m).toBytes = 0 :: 5 :: 0 :: errorNumber c :: (m ++ 0 :: []) := by
      simp only [Packet.toBytes, be16_errorCode]; rfl
    rw [this]
    exact .error h hf
  | optionalAck e => exact .optionalAck (shortOptions_of_exts hf h.1 h.2)

/-- Non-vacuity: a request with a file name of 150 bytes and a signature of 88. -/
example : Sendable (.read ⟨List.replicate 150 97, Exts.empty.insert .signature (List.replicate 88 65)⟩) ∧
    Fits (.read ⟨List.replicate 150 97, Exts.empty.insert .signature (List.replicate 88 65)⟩) := by
  refine ⟨⟨⟨by decide +kernel, by decide +kernel⟩, ?_⟩, by decide +kernel, ?_⟩
  · intro k v h
    cases k <;> simp only [Exts.insert, Exts.empty, ↓reduceIte, reduceCtorEq] at h
    cases h; exact ⟨by decide +kernel, by decide +kernel⟩
  · intro k v h
    cases k <;> simp only [Exts.insert, Exts.empty, ↓reduceIte, reduceCtorEq] at h
    cases h; decide +kernel

theorem exts_bound (e : Exts) (h : ∀ k v, e k = some v → v.length ≤ 88) : e.toBytes.length ≤ 8 * 100 := by
  unfold Exts.toBytes
  rw [foldl_append_length (fun kv : Extension × Bytes => kv.1.name ++ [0] ++ kv.2 ++ [0])]
  have key : ∀ l : List Extension,
      ((l.filterMap fun k => (e k).map fun v => (k, v)).map fun x => (x.1.name ++ [0] ++ x.2 ++ [0]).length).sum ≤ l.length * 100 := by
    intro l
    induction l with
    | nil => simp
    | cons k l ih =>
      cases hk : e k with
      | none => simp only [List.filterMap_cons, hk, Option.map_none, List.length_cons]; omega
      | some v =>
        have hv := h k v hk
        have hn : k.name.length ≤ 10 := by cases k <;> decide
        simp only [List.filterMap_cons, hk, Option.map_some, List.map_cons, List.sum_cons, List.length_append,
          List.length_cons, List.length_nil]
        simp only [List.length_append, List.length_cons, List.length_nil] at ih
        omega
  have := key Extension.all
  have h8 : Extension.all.length = 8 := rfl
  rw [h8] at this
  simpa [Exts.entries] using this

/-- **C89**: encoding what fits needs at most 1429 bytes: the fixed buffers for packets are never too small. -/
theorem c89_encoded (p : Packet) (h : Fits p) : p.toBytes.length ≤ packetBlockCap := by
  have ho : (ascii "octet").length = 5 := by decide
  unfold packetBlockCap
  cases p with
  | read r =>
    have := exts_bound r.exts h.2
    have := h.1
    simp only [Packet.toBytes, be16, Request.toBytes, List.length_append, List.length_cons, List.length_nil]; omega
  | write r =>
    have := exts_bound r.exts h.2
    have := h.1
    simp only [Packet.toBytes, be16, Request.toBytes, List.length_append, List.length_cons, List.length_nil]; omega
  | data b d =>
    have : d.length ≤ 1425 := h
    simp only [Packet.toBytes, be16, List.length_append, List.length_cons, List.length_nil]; omega
  | ack b => simp [Packet.toBytes, be16]
  | error c m =>
    have : m.length ≤ 140 := h
    simp only [Packet.toBytes, be16, List.length_append, List.length_cons, List.length_nil]; omega
  | optionalAck e =>
    have := exts_bound e h
    simp only [Packet.toBytes, be16, List.length_append, List.length_cons, List.length_nil]; omega

/-- **C89**: what does not fit. A request with a file name of more than 150 bytes and an error with a text of more than 140 bytes are refused,
whatever follows. -/
theorem c89_too_long (name rest : Bytes) (h0 : (0 : UInt8) ∉ name) :
    (150 < name.length → ∀ op, op = 1 ∨ op = 2 → ∀ p, Packet.fromBytesIn (0 :: op :: (name ++ 0 :: rest)) ≠ .ok p) ∧
      (140 < name.length → ∀ code p, Packet.fromBytesIn (0 :: 5 :: 0 :: errorNumber code :: (name ++ 0 :: rest)) ≠ .ok p) := by
  refine ⟨fun hl op hop p h => ?_, fun hl code p h => ?_⟩
  · have key : ∀ r, ¬ ShortRequestBody (name ++ 0 :: rest) r := by
      rintro r ⟨opts, ht, hlen, hb, -⟩
      have h1 := splitNul_append (t := rest) h0
      rw [hb, splitNul_append ht.1] at h1
      simp only [Option.some.injEq, Prod.mk.injEq] at h1
      rw [h1.1] at hlen
      omega
    rw [c89_decode] at h
    generalize hb : (0 :: op :: (name ++ 0 :: rest) : Bytes) = b at h
    rcases hop with rfl | rfl
    · cases h <;> simp only [List.cons.injEq, true_and] at hb
      · rename_i hh; subst hb; exact key _ hh
      all_goals exact absurd hb.1 (by decide)
    · cases h <;> simp only [List.cons.injEq, true_and] at hb
      case write hh => subst hb; exact key _ hh
      all_goals exact absurd hb.1 (by decide)
  · rw [c89_decode] at h
    generalize hb : (0 :: 5 :: 0 :: errorNumber code :: (name ++ 0 :: rest) : Bytes) = b at h
    cases h <;> simp only [List.cons.injEq, true_and] at hb
    case error code' m junk ht hlen =>
      have h1 := splitNul_append (t := rest) h0
      rw [hb.2, splitNul_append ht.1] at h1
      simp only [Option.some.injEq, Prod.mk.injEq] at h1
      rw [h1.1] at hlen
      omega
    all_goals exact absurd hb.1 (by decide)

/-- Non-vacuity and contrast: a read request for a name of 151 bytes, refused without an allocator and accepted with one. -/
example : (∀ p, Packet.fromBytesIn (0 :: 1 :: (List.replicate 151 97 ++ 0 :: (ascii "octet" ++ [0]))) ≠ .ok p) ∧
    Packet.fromBytes (0 :: 1 :: (List.replicate 151 97 ++ 0 :: (ascii "octet" ++ [0]))) = .ok (.read ⟨List.replicate 151 97, Exts.empty⟩) := by
  refine ⟨(c89_too_long (List.replicate 151 97) _ (by decide +kernel)).1 (by decide +kernel) 1 (.inl rfl), ?_⟩
  rw [c03_decode_iff_wire]
  exact .read ⟨[], ⟨by decide +kernel, by decide +kernel⟩, rfl, .inl ⟨rfl, rfl⟩⟩

/-- **C89**: options. The values of more than 88 bytes are ignored; an earlier short value of the same option stays. -/
theorem c89_options (ps : List (Bytes × Bytes)) (h0 : ps ≠ []) (hok : PairsOk ps) (hf : ¬ Full (ps.dropLast.filter shortValue)) :
    Packet.fromBytesIn (0 :: 6 :: pairsWire ps) = .ok (.optionalAck (denotes (ps.filter shortValue))) := by
  rw [c89_decode]
  exact .optionalAck ⟨ps, [], h0, hok, (List.append_nil _).symm, rfl, hf, Or.inl rfl⟩

/-- Non-vacuity and contrast: `blksize` 8 and then a value of 89 digits; without an allocator the first counts, with one the last. -/
example : Packet.fromBytesIn (0 :: 6 :: pairsWire [(ascii "blksize", ascii "8"), (ascii "blksize", List.replicate 89 48)]) =
      .ok (.optionalAck (Exts.empty.insert .blockSize (ascii "8"))) ∧
    Packet.fromBytes (0 :: 6 :: pairsWire [(ascii "blksize", ascii "8"), (ascii "blksize", List.replicate 89 48)]) =
      .ok (.optionalAck (Exts.empty.insert .blockSize (List.replicate 89 48))) := by
  have hok : PairsOk [(ascii "blksize", ascii "8"), (ascii "blksize", List.replicate 89 48)] := by
    intro p hp
    simp only [List.mem_cons, List.not_mem_nil, or_false] at hp
    rcases hp with rfl | rfl <;> exact ⟨⟨by decide +kernel, by decide +kernel⟩, by decide +kernel, by decide +kernel⟩
  constructor
  · rw [c89_options _ (by simp) hok (fun h => absurd (h .timeout) (by decide))]
    congr 2; funext k; cases k <;> decide +kernel
  · rw [c03_decode_iff_wire]
    refine .optionalAck ⟨_, [], by simp, hok, (List.append_nil _).symm, ?_, (fun h => absurd (h .timeout) (by decide)), Or.inl rfl⟩
    funext k; cases k <;> decide +kernel

/-- The loops agree as long as no string of the list is too long. -/
theorem extLoopIn_same (fuel : Nat) (b : Bytes) (e : Exts) (h : ∀ x s y, b = x ++ s ++ y → (0 : UInt8) ∉ s → s.length ≤ 88) :
    extLoopIn fuel b e = extLoop fuel b e := by
  induction fuel generalizing b e with
  | zero => rfl
  | succ fuel ih =>
    rw [extLoopIn, extLoop]
    split
    · cases hs1 : splitNul b with
      | none => rfl
      | some p1 =>
        obtain ⟨name, next⟩ := p1
        obtain ⟨hb, hn0⟩ := splitNul_eq_some.mp hs1
        simp only
        split
        · cases hs2 : splitNul next with
          | none => rfl
          | some p2 =>
            obtain ⟨value, next'⟩ := p2
            obtain ⟨hb2, hv0⟩ := splitNul_eq_some.mp hs2
            have hv : value.length ≤ 88 := h (name ++ [0]) value (0 :: next') (by simp [hb, hb2]) hv0
            have hi : e.insertFit name value = e.insertNamed name value := by
              rw [Exts.insertFit, if_pos (show value.length ≤ extensionValueCap from hv)]
            simp only [hi]
            split
            · split
              · rfl
              · exact ih _ _ fun x s y hx => h (name ++ [0] ++ value ++ [0] ++ x) s y (by simp [hb, hb2, hx])
            · rfl
        · rfl
    · rfl

/-- **C89**: both builds take the same datagrams, with the same result and the same errors, as long as no run of non-zero bytes in the datagram
is longer than 88 bytes; data packets and acknowledgements without any condition. -/
theorem c89_same (b : Bytes) :
    ((∀ x s y, b = x ++ s ++ y → (0 : UInt8) ∉ s → s.length ≤ 88) → Packet.fromBytesIn b = Packet.fromBytes b) ∧
      ((∃ op rest, b = 0 :: op :: rest ∧ (op = 3 ∨ op = 4)) → Packet.fromBytesIn b = Packet.fromBytes b) := by
  constructor
  · intro h
    have hd : ∀ n x s y, b.drop n = x ++ s ++ y → (0 : UInt8) ∉ s → s.length ≤ 88 := by
      intro n x s y hx
      refine h (b.take n ++ x) s y ?_
      rw [List.append_assoc, List.append_assoc, ← List.append_assoc x, ← hx, List.take_append_drop]
    have hreq : Request.fromBytesIn (b.drop 2) = Request.fromBytes (b.drop 2) := by
      unfold Request.fromBytesIn Request.fromBytes
      cases hs1 : splitNul (b.drop 2) with
      | none => rfl
      | some p1 =>
        obtain ⟨name, rest⟩ := p1
        obtain ⟨hb, hn0⟩ := splitNul_eq_some.mp hs1
        have hn : name.length ≤ 88 := hd 2 [] name (0 :: rest) (by simp [hb]) hn0
        simp only
        rw [if_pos (show name.length ≤ filePathCap by unfold filePathCap; omega)]
        split
        · cases hs2 : splitNul rest with
          | none => rfl
          | some p2 =>
            obtain ⟨mode, rest'⟩ := p2
            obtain ⟨hb2, hv0⟩ := splitNul_eq_some.mp hs2
            have he : Exts.fromBytesIn rest' = Exts.fromBytes rest' :=
              extLoopIn_same _ _ _ fun x s y hx => hd 2 (name ++ [0] ++ mode ++ [0] ++ x) s y (by simp [hb, hb2, hx])
            simp only [he]
            split
            · split
              · split
                · rfl
                · cases Exts.fromBytes rest' <;> rfl
              · rfl
            · rfl
        · rfl
    have herr : errorFromBytesIn (b.drop 2) = errorFromBytes (b.drop 2) := by
      unfold errorFromBytesIn errorFromBytes
      cases readU16 (b.drop 2) with
      | none => rfl
      | some c =>
        simp only
        cases ErrorCode.ofRepr c.toNat with
        | none => rfl
        | some code =>
          simp only
          cases hs : splitNul ((b.drop 2).drop 2) with
          | none => rfl
          | some p =>
            obtain ⟨m, junk⟩ := p
            obtain ⟨hb, hn0⟩ := splitNul_eq_some.mp hs
            have hn : m.length ≤ 88 := hd 4 [] m (0 :: junk) (by rw [List.nil_append, ← hb, List.drop_drop]) hn0
            simp only
            rw [if_pos (show m.length ≤ defaultStringCap by unfold defaultStringCap; omega)]
    have hopt : Exts.fromBytesIn (b.drop 2) = Exts.fromBytes (b.drop 2) := extLoopIn_same _ _ _ (hd 2)
    unfold Packet.fromBytesIn Packet.fromBytes
    rw [hreq, herr, hopt]
    cases readU16 b with
    | none => rfl
    | some op =>
      simp only
      cases PacketType.ofRepr op.toNat with
      | none => rfl
      | some t => cases t <;> rfl
  · rintro ⟨op, rest, rfl, rfl | rfl⟩ <;> rfl

/-- **C89**: what this program itself sends in a negotiation fits: the options of a client, the option acknowledgement of a server. -/
theorem c89_negotiation {S : SigScheme} :
    (∀ (co : Opts) (keys : InitialKeys S), keys.sessionPub.length = 32 → co.blockSize ≤ 65535 → co.window ≤ 65535 →
      (∀ s, co.fileSize = some s → s < 2 ^ 64) → co.retry < 2 ^ 64 → ∀ name, name.length ≤ 150 →
        Fits (.read ⟨name, createExtensions co keys⟩) ∧ Fits (.write ⟨name, createExtensions co keys⟩)) ∧
    (∀ (cfg : SrvCfg S) (session : Bytes) (handshake : Level) (ce : Exts) (kind : ReqKind) (u : Exts) (o : Opts) (k : Option SessionKeys),
      cfg.maxBlock ≤ 65535 → cfg.maxWindow ≤ 65535 → session.length = 32 → (∀ s, kind = .read (some s) → s < 2 ^ 64) →
        srvNegotiate cfg session handshake ce kind = .ok (u, o, k) → Fits (.optionalAck u)) := by
  have hcap : ∀ k, Spec.valueCap k ≤ 88 := by intro k; cases k <;> decide
  constructor
  · intro co keys hk hb hw hf hr name hn
    have h := createExtensions_short co keys hk ⟨hb, hw, hf⟩ hr
    exact ⟨⟨hn, fun k v hv => Nat.le_trans (h k v hv).1 (hcap k)⟩, hn, fun k v hv => Nat.le_trans (h k v hv).1 (hcap k)⟩
  · intro cfg session handshake ce kind u o k hb hw hs hkind h
    exact fun x v hv => Nat.le_trans (srvNegotiate_short cfg hb hw session hs handshake ce kind hkind u o k h x v hv).1 (hcap x)

theorem text_quoted (name : Bytes) : (quoted name).length ≤ 100 := by
  unfold quoted ensureSize
  by_cases hl : name.length > 100
  · rw [if_pos hl]
    split
    · rename_i x hx
      split at hx
      · cases hx; simp; omega
      · cases hx
    · simp
  · rw [if_neg hl]; simp only; omega

/-- **C89**: every refusal of the server has a text of at most 140 bytes: a client without an allocator can read it, and a server without an
allocator can write it. -/
theorem c89_refusals {S} (v : Srv S) (dg : Bytes) (io : NewIo) (b : Bytes) (hb : b ∈ v.answers dg io) :
    ∃ code text, text.length ≤ 140 ∧ (b = (Packet.error code text).toBytes ∨
      ∃ A o n, (v.openRequest dg).1 = some A ∧ sealPacket A (v.nonce n) (Packet.error code text).toBytes o = .ok b) := by
  have hrep : ∀ hs o n code text, text.length ≤ 140 → b ∈ v.replyText hs o n code text → (hs = (v.openRequest dg).1) →
      ∃ code text, text.length ≤ 140 ∧ (b = (Packet.error code text).toBytes ∨
        ∃ A o n, (v.openRequest dg).1 = some A ∧ sealPacket A (v.nonce n) (Packet.error code text).toBytes o = .ok b) := by
    intro hs o n code text hl hm he
    refine ⟨code, text, hl, ?_⟩
    unfold Srv.replyText at hm
    split at hm
    · cases hm
    · split at hm
      · exact .inl (List.mem_singleton.mp hm)
      · next A =>
        split at hm
        · next d hd =>
          rw [List.mem_singleton.mp hm]
          exact .inr ⟨A, _, n, he.symm, hd⟩
        · cases hm
  unfold Srv.answers at hb
  simp only at hb
  cases hr : v.requestOf dg with
  | none => rw [hr] at hb; cases hb
  | some wr =>
    obtain ⟨write, r⟩ := wr
    rw [hr] at hb
    simp only at hb
    cases hp : srvParse v.cfg io.sessionPub r.exts { Opts.default with level := v.arrived dg } with
    | error x =>
      rw [hp] at hb
      have ht := parse_told v.cfg io.sessionPub r.exts (v.openRequest dg).1.isSome x hp
      exact hrep _ _ _ _ _ (told_text ht).2 hb rfl
    | ok q =>
      obtain ⟨u, o, k⟩ := q
      rw [hp] at hb
      simp only at hb
      split at hb
      · rw [List.mem_singleton.mp hb]
        refine ⟨_, _, ?_, .inl rfl⟩
        have hsz : o.fileSize.getD 0 ≤ 2 ^ 64 - 1 := by
          rw [parsed_size hp]
          unfold Spec.requested
          cases r.exts .transferSize with
          | none => simp
          | some t =>
            simp only [Option.bind_some]
            cases ht : parseUInt (2 ^ 64 - 1) t with
            | none => simp
            | some n => exact parseUInt_le _ _ _ ht
        have h1 := decimal_length_le (o.fileSize.getD 0) 20 (Nat.lt_of_le_of_lt hsz (by decide)) (by omega)
        have h2 : (ascii "Invalid file size received ").length = 27 := by decide +kernel
        rw [List.length_append]; omega
      · have hq := text_quoted r.fileName
        cases hm : normalizeName r.fileName with
        | none =>
          rw [hm] at hb
          rw [List.mem_singleton.mp hb]
          refine ⟨_, _, ?_, .inl rfl⟩
          have h2 : (ascii "Invalid file name received ").length = 27 := by decide +kernel
          rw [List.length_append]; omega
        | some name =>
          rw [hm] at hb
          simp only at hb
          split at hb
          · split at hb
            · cases hb
            · refine hrep _ _ _ _ _ ?_ hb rfl
              have h2 : (ascii "Unable to write file ").length = 21 := by decide +kernel
              rw [List.length_append]; omega
          · split at hb
            · cases hb
            · refine hrep _ _ _ _ _ ?_ hb rfl
              have h2 : (ascii "Unable to read file ").length = 20 := by decide +kernel
              rw [List.length_append]; omega

end Tftp

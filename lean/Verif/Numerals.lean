import Verif.NegotiateProps
/-
What a number in the text of an option is, by itself: digits which count powers of ten. The model's parser (`parseUInt`, digit by digit with a check for
overflow) and printer (`decimal`) are shown to mean just this, and what both sides agree on is said again in these terms (C16, C17).
-/
namespace Tftp
open Spec

/-- Specification: the value of a list of digits, most significant first. -/
def Spec.value : List Nat → Nat
  | [] => 0
  | d :: ds => d * 10 ^ ds.length + value ds

/-- Specification: the character of a digit (ASCII). -/
def Spec.digit (d : Nat) : UInt8 := UInt8.ofNat (48 + d)

/-- Specification: the text is at least one decimal digit, perhaps after a plus sign, and means `n`. Any number of zeros can come first. -/
def Spec.Numeral (s : Bytes) (n : Nat) : Prop :=
  ∃ ds : List Nat, ds ≠ [] ∧ (∀ d ∈ ds, d < 10) ∧ (s = ds.map digit ∨ s = 43 :: ds.map digit) ∧ value ds = n

/-- Specification: the one numeral of `n` without a sign and without zeros in front of it. -/
def Spec.Printed (s : Bytes) (n : Nat) : Prop :=
  ∃ ds : List Nat, ds ≠ [] ∧ (∀ d ∈ ds, d < 10) ∧ s = ds.map digit ∧ value ds = n ∧ (ds.head? = some 0 → ds = [0])

/-- Specification: with option `e` the number `n` is asked for (or confirmed); numbers above `max` do not fit into the type of the option. -/
def Spec.Says (es : Exts) (e : Extension) (max n : Nat) : Prop := ∃ t, es e = some t ∧ Numeral t n ∧ n ≤ max

/-! ### The parser -/

theorem digit_toNat {d : Nat} (h : d < 10) : (digit d).toNat = 48 + d := by
  unfold digit
  rw [UInt8.toNat_ofNat']
  omega

theorem digit_of {c : UInt8} (h1 : 48 ≤ c.toNat) (h2 : c.toNat ≤ 57) : c = digit (c.toNat - 48) := by
  unfold digit
  rw [show 48 + (c.toNat - 48) = c.toNat by omega]
  exact (UInt8.ofNat_toNat).symm

theorem value_append (a b : List Nat) : value (a ++ b) = value a * 10 ^ b.length + value b := by
  induction a with
  | nil => simp [value]
  | cons d ds ih =>
    simp only [List.cons_append, value, ih, List.length_append, Nat.pow_add]
    rw [Nat.add_mul, Nat.mul_assoc, Nat.add_assoc]

theorem value_lt {ds : List Nat} (h : ∀ d ∈ ds, d < 10) : value ds < 10 ^ ds.length := by
  induction ds with
  | nil => simp [value]
  | cons d ds ih =>
    have h1 := ih fun x hx => h x (List.mem_cons_of_mem _ hx)
    have h2 := h d List.mem_cons_self
    simp only [value, List.length_cons, Nat.pow_succ]
    have : d * 10 ^ ds.length ≤ 9 * 10 ^ ds.length := Nat.mul_le_mul_right _ (by omega)
    omega

theorem parseDigits_iff (max : Nat) (s : Bytes) : ∀ acc n, acc ≤ max → (parseDigits max acc s = some n ↔
    ∃ ds, (∀ d ∈ ds, d < 10) ∧ s = ds.map digit ∧ acc * 10 ^ ds.length + value ds = n ∧ n ≤ max) := by
  induction s with
  | nil =>
    intro acc n ha
    simp only [parseDigits, Option.some.injEq]
    constructor
    · rintro rfl
      exact ⟨[], by simp, rfl, by simp [value], ha⟩
    · rintro ⟨ds, -, h2, h3, -⟩
      have : ds = [] := List.map_eq_nil_iff.mp h2.symm
      subst this
      simpa [value] using h3
  | cons c r ih =>
    intro acc n ha
    simp only [parseDigits]
    by_cases hc : 48 ≤ c.toNat ∧ c.toNat ≤ 57
    · rw [if_pos hc]
      by_cases hv : acc * 10 + (c.toNat - 48) ≤ max
      · simp only [hv, ↓reduceIte]
        rw [ih _ _ hv]
        constructor
        · rintro ⟨ds, h1, h2, h3, h4⟩
          refine ⟨(c.toNat - 48) :: ds, ?_, ?_, ?_, h4⟩
          · intro d hd
            rcases List.mem_cons.mp hd with rfl | hd
            · omega
            · exact h1 d hd
          · rw [List.map_cons, ← digit_of hc.1 hc.2, h2]
          · rw [← h3]
            simp only [List.length_cons, value, Nat.pow_succ, Nat.add_mul, Nat.mul_assoc, Nat.mul_comm 10, Nat.add_assoc]
        · rintro ⟨ds, h1, h2, h3, h4⟩
          cases ds with
          | nil => cases h2
          | cons d ds =>
            simp only [List.map_cons, List.cons.injEq] at h2
            have hd := h1 d List.mem_cons_self
            have e : c.toNat - 48 = d := by rw [h2.1, digit_toNat hd]; omega
            refine ⟨ds, fun x hx => h1 x (List.mem_cons_of_mem _ hx), h2.2, ?_, h4⟩
            rw [← h3, e]
            simp only [List.length_cons, value, Nat.pow_succ, Nat.add_mul, Nat.mul_assoc, Nat.mul_comm 10, Nat.add_assoc]
      · simp only [hv, ↓reduceIte, reduceCtorEq, false_iff]
        rintro ⟨ds, h1, h2, h3, h4⟩
        cases ds with
        | nil => cases h2
        | cons d ds =>
          simp only [List.map_cons, List.cons.injEq] at h2
          have hd := h1 d List.mem_cons_self
          have e : c.toNat - 48 = d := by rw [h2.1, digit_toNat hd]; omega
          apply hv
          rw [e]
          simp only [List.length_cons, value, Nat.pow_succ] at h3
          have h5 : (acc * 10 + d) * 1 ≤ (acc * 10 + d) * 10 ^ ds.length := Nat.mul_le_mul_left _ (Nat.pos_of_ne_zero (by simp))
          have h6 : (acc * 10 + d) * 10 ^ ds.length = acc * (10 ^ ds.length * 10) + d * 10 ^ ds.length := by
            simp only [Nat.add_mul, Nat.mul_assoc, Nat.mul_comm 10]
          omega
    · rw [if_neg hc]
      simp only [reduceCtorEq, false_iff]
      rintro ⟨ds, h1, h2, -, -⟩
      cases ds with
      | nil => cases h2
      | cons d ds =>
        simp only [List.map_cons, List.cons.injEq] at h2
        have hd := h1 d List.mem_cons_self
        apply hc
        rw [h2.1, digit_toNat hd]
        omega

/-- The parser accepts the numerals of the numbers up to `max`, and nothing else. -/
theorem numeral_iff (max : Nat) (s : Bytes) (n : Nat) : parseUInt max s = some n ↔ Numeral s n ∧ n ≤ max := by
  have plain : ∀ ds : List Nat, (∀ d ∈ ds, d < 10) → ∀ r, ds.map digit ≠ 43 :: r := by
    intro ds h r hr
    cases ds with
    | nil => cases hr
    | cons d ds =>
      simp only [List.map_cons, List.cons.injEq] at hr
      have := congrArg UInt8.toNat hr.1
      rw [digit_toNat (h d List.mem_cons_self)] at this
      change _ = 43 at this
      omega
  unfold parseUInt
  split
  · simp only [reduceCtorEq, false_iff]
    rintro ⟨⟨ds, h1, -, h3 | h3, -⟩, -⟩
    · exact h1 (List.map_eq_nil_iff.mp h3.symm)
    · cases h3
  · rename_i r
    cases hr : r.isEmpty with
    | true =>
      have : r = [] := List.isEmpty_iff.mp hr
      subst this
      simp only [↓reduceIte, reduceCtorEq, false_iff]
      rintro ⟨⟨ds, h1, h2, h3 | h3, -⟩, -⟩
      · exact plain ds h2 _ h3.symm
      · simp only [List.cons.injEq, true_and] at h3
        exact h1 (List.map_eq_nil_iff.mp h3.symm)
    | false =>
      simp only [Bool.false_eq_true, ↓reduceIte]
      rw [parseDigits_iff max r 0 n (Nat.zero_le _)]
      constructor
      · rintro ⟨ds, h1, h2, h3, h4⟩
        refine ⟨⟨ds, ?_, h1, .inr (by rw [h2]), by omega⟩, h4⟩
        rintro rfl
        rw [h2] at hr
        cases hr
      · rintro ⟨⟨ds, h1, h2, h3 | h3, h4⟩, h5⟩
        · exact absurd h3.symm (plain ds h2 _)
        · simp only [List.cons.injEq, true_and] at h3
          exact ⟨ds, h2, h3, by omega, h5⟩
  · rename_i h1 h2
    rw [parseDigits_iff max s 0 n (Nat.zero_le _)]
    constructor
    · rintro ⟨ds, g1, g2, g3, g4⟩
      refine ⟨⟨ds, ?_, g1, .inl g2, by omega⟩, g4⟩
      rintro rfl
      exact h1 g2
    · rintro ⟨⟨ds, g1, g2, g3 | g3, g4⟩, g5⟩
      · exact ⟨ds, g2, g3, by omega, g5⟩
      · exact absurd g3 (h2 _)

/-- A text means one number at most. -/
theorem Spec.Numeral.unique {s : Bytes} {m n : Nat} (h1 : Numeral s m) (h2 : Numeral s n) : m = n := by
  have g1 := (numeral_iff (max m n) s m).mpr ⟨h1, Nat.le_max_left _ _⟩
  have g2 := (numeral_iff (max m n) s n).mpr ⟨h2, Nat.le_max_right _ _⟩
  rw [g1] at g2
  exact Option.some.inj g2

theorem requested_says (es : Exts) (e : Extension) (max n : Nat) : requested es e max = some n ↔ Says es e max n := by
  unfold requested Says
  cases es e with
  | none => simp
  | some t =>
    simp only [Option.bind_some, Option.some.injEq, exists_eq_left']
    exact numeral_iff max t n

/-! ### The printer -/

theorem decimal_value (n : Nat) : ∃ ds : List Nat, ds ≠ [] ∧ (∀ d ∈ ds, d < 10) ∧ decimal n = ds.map digit ∧ value ds = n ∧
    (n ≠ 0 → ds.head? ≠ some 0) ∧ (n = 0 → ds = [0]) := by
  induction n using Nat.strongRecOn with
  | ind n ih =>
    unfold decimal
    by_cases hn : n < 10
    · rw [if_pos hn]
      exact ⟨[n], by simp, by simpa using hn, rfl, by simp [value], by simp, fun h => by rw [h]⟩
    · rw [if_neg hn]
      obtain ⟨ds, h1, h2, h3, h4, h5, -⟩ := ih (n / 10) (by omega)
      refine ⟨ds ++ [n % 10], by simp, ?_, ?_, ?_, ?_, fun h => by omega⟩
      · intro d hd
        rcases List.mem_append.mp hd with hd | hd
        · exact h2 d hd
        · have := List.mem_singleton.mp hd
          omega
      · rw [h3, List.map_append]; rfl
      · rw [value_append, h4]
        simp only [value, List.length_cons, List.length_nil, Nat.zero_add, Nat.pow_one, Nat.pow_zero, Nat.mul_one, Nat.add_zero]
        omega
      · intro _
        cases ds with
        | nil => exact absurd rfl h1
        | cons d ds => simpa using h5 (by omega)

theorem value_inj : ∀ (a b : List Nat), a.length = b.length → (∀ d ∈ a, d < 10) → (∀ d ∈ b, d < 10) → value a = value b → a = b := by
  intro a
  induction a with
  | nil => intro b hl _ _ _; exact (List.eq_nil_of_length_eq_zero hl.symm).symm
  | cons x a ih =>
    intro b hl ha hb hv
    cases b with
    | nil => cases hl
    | cons y b =>
      simp only [List.length_cons, Nat.add_right_cancel_iff] at hl
      have h1 := value_lt fun d hd => ha d (List.mem_cons_of_mem _ hd)
      have h2 := value_lt fun d hd => hb d (List.mem_cons_of_mem _ hd)
      simp only [value, hl] at hv
      rw [hl] at h1
      have e : x = y := by
        rcases Nat.lt_trichotomy x y with h | h | h
        · have := Nat.mul_le_mul_right (10 ^ b.length) (show x + 1 ≤ y from h)
          rw [Nat.add_mul] at this
          omega
        · exact h
        · have := Nat.mul_le_mul_right (10 ^ b.length) (show y + 1 ≤ x from h)
          rw [Nat.add_mul] at this
          omega
      subst e
      rw [ih b hl (fun d hd => ha d (List.mem_cons_of_mem _ hd)) (fun d hd => hb d (List.mem_cons_of_mem _ hd)) (by omega)]

/-- How many digits there are follows from the value, if the first one is not zero. -/
theorem value_length {ds : List Nat} (h1 : ds ≠ []) (h3 : ds.head? ≠ some 0) : 10 ^ (ds.length - 1) ≤ value ds := by
  cases ds with
  | nil => exact absurd rfl h1
  | cons d ds =>
    have hd : d ≠ 0 := by simpa using h3
    simp only [List.length_cons, Nat.add_sub_cancel, value]
    have : 1 * 10 ^ ds.length ≤ d * 10 ^ ds.length := Nat.mul_le_mul_right _ (by omega)
    omega

/-- The printer prints this one numeral. -/
theorem printed_iff (s : Bytes) (n : Nat) : s = decimal n ↔ Printed s n := by
  obtain ⟨ds, h1, h2, h3, h4, h5, h6⟩ := decimal_value n
  constructor
  · rintro rfl
    refine ⟨ds, h1, h2, h3, h4, fun h => ?_⟩
    by_cases hn : n = 0
    · exact h6 hn
    · exact absurd h (h5 hn)
  · rintro ⟨es, g1, g2, rfl, g4, g5⟩
    rw [h3]
    congr 1
    by_cases hn : n = 0
    · rw [h6 hn]
      by_cases hh : es.head? = some 0
      · exact g5 hh
      · have := value_length g1 hh
        have : 0 < 10 ^ (es.length - 1) := Nat.pos_of_ne_zero (by simp)
        omega
    · have k1 : es.head? ≠ some 0 := by
        intro hh
        rw [g5 hh] at g4
        simp [value] at g4
        omega
      refine value_inj _ _ ?_ g2 h2 (by rw [g4, h4])
      have a1 := value_length g1 k1
      have a2 := value_length h1 (h5 hn)
      have a3 := value_lt g2
      have a4 := value_lt h2
      rw [g4] at a1 a3
      rw [h4] at a2 a4
      have b1 : es.length - 1 < ds.length := (Nat.pow_lt_pow_iff_right (by decide)).mp (Nat.lt_of_le_of_lt a1 a4)
      have b2 : ds.length - 1 < es.length := (Nat.pow_lt_pow_iff_right (by decide)).mp (Nat.lt_of_le_of_lt a2 a3)
      have c1 := List.length_pos_iff.mpr g1
      have c2 := List.length_pos_iff.mpr h1
      omega

/-! ### The server -/

/-- **C16**, in terms of numerals and for each option alone: what the server uses and confirms is fixed by what the client asks for. A block size of at least 512
is cut to the server's maximum, a smaller one or something which is no number (of 16 bits) counts as not asked; the same for the window with 1, but a timeout above
the server's is not cut but ignored. -/
theorem c16_text {S : SigScheme} (cfg : SrvCfg S) (hb : 512 ≤ cfg.maxBlock) (hw : 1 ≤ cfg.maxWindow)
    (session : Bytes) (handshake : Level) (ce : Exts) (kind : ReqKind) (u : Exts) (o : Opts) (k : Option SessionKeys)
    (h : srvNegotiate cfg session handshake ce kind = .ok (u, o, k)) :
    ((∃ n s, Says ce .blockSize 65535 n ∧ 512 ≤ n ∧ o.blockSize = min n cfg.maxBlock ∧ u .blockSize = some s ∧ Printed s o.blockSize) ∨
      ((∀ n, Says ce .blockSize 65535 n → n < 512) ∧ o.blockSize = 512 ∧ u .blockSize = none)) ∧
    ((∃ n s, Says ce .windowSize 65535 n ∧ 1 ≤ n ∧ o.window = min n cfg.maxWindow ∧ u .windowSize = some s ∧ Printed s o.window) ∨
      ((∀ n, Says ce .windowSize 65535 n → n = 0) ∧ o.window = 1 ∧ u .windowSize = none)) ∧
    ((∃ n s, Says ce .timeout 255 n ∧ 1 ≤ n ∧ n * 1000 ≤ cfg.requestTimeout ∧ o.retry = n * 1000 ∧ u .timeout = some s ∧ Printed s n) ∨
      ((∀ n, Says ce .timeout 255 n → n = 0 ∨ cfg.requestTimeout < n * 1000) ∧ o.retry = 80 ∧ u .timeout = none)) ∧
    (kind = .write →
      (∃ n s, Says ce .transferSize (2 ^ 64 - 1) n ∧ o.fileSize = some n ∧ u .transferSize = some s ∧ Printed s n) ∨
      ((∀ n, ¬ Says ce .transferSize (2 ^ 64 - 1) n) ∧ o.fileSize = none ∧ u .transferSize = none)) ∧
    (∀ actual, kind = .read actual → o.fileSize = actual ∧
      ((∃ n s, Says ce .transferSize (2 ^ 64 - 1) n ∧ u .transferSize = some s ∧ ∃ size, actual = some size ∧
          Printed s (if size = 0 then n else size)) ∨
        ((∀ n, Says ce .transferSize (2 ^ 64 - 1) n → actual = none) ∧ u .transferSize = none))) := by
  obtain ⟨u0, o0, hp, -, hk⟩ := srvNegotiate_ok h
  obtain ⟨u1, o1, cl, hN, hcl, -, hcase⟩ := srvParse_ok hp
  have hu0 : ∀ e, e ≠ .sessionPublicKey → e ≠ .authPublicKey → e ≠ .signature → e ≠ .encryptionLevel →
      u0 e = u1 e := by
    intro e h1 h2 h3 h4
    rcases hcase with ⟨-, -, rfl, -, -⟩ | ⟨l, remote, auth, -, -, -, -, -, -, rfl, -, -⟩
    · rfl
    · rw [srvKeys_other _ _ _ _ _ ⟨h1, h2, h3⟩]; simp [Exts.insert, h4]
  have ho0 : o0.blockSize = o1.blockSize ∧ o0.window = o1.window ∧ o0.retry = o1.retry ∧ o0.fileSize = o1.fileSize := by
    rcases hcase with ⟨-, -, -, rfl, -⟩ | ⟨l, remote, auth, -, -, -, -, -, -, -, rfl, -⟩ <;> exact ⟨rfl, rfl, rfl, rfl⟩
  have hu : ∀ e, e ≠ .transferSize → u e = u0 e := by
    intro e he
    rcases hk with ⟨-, rfl, -⟩ | ⟨a, -, rfl, -⟩
    · rfl
    · exact srvReadSize_other _ _ _ _ he
  have ho : o.blockSize = o1.blockSize ∧ o.window = o1.window ∧ o.retry = o1.retry := by
    rcases hk with ⟨-, -, rfl⟩ | ⟨a, -, -, rfl⟩ <;> exact ⟨ho0.1, ho0.2.1, ho0.2.2.1⟩
  have hub : u .blockSize = u1 .blockSize := by rw [hu _ (by simp), hu0 _ (by simp) (by simp) (by simp) (by simp)]
  have huw : u .windowSize = u1 .windowSize := by rw [hu _ (by simp), hu0 _ (by simp) (by simp) (by simp) (by simp)]
  have hut : u .timeout = u1 .timeout := by rw [hu _ (by simp), hu0 _ (by simp) (by simp) (by simp) (by simp)]
  have hus : u0 .transferSize = u1 .transferSize := hu0 _ (by simp) (by simp) (by simp) (by simp)
  obtain ⟨ob, ow, ot⟩ := ho
  rw [hub, huw, hut, ob, ow, ot]
  have B := hN.block
  have W := hN.window
  have T := hN.timeout
  have Z := hN.size
  simp only [requested_says] at B W T
  refine ⟨?_, ?_, ?_, ?_, ?_⟩
  · rcases B with ⟨b1, b2, b3⟩ | ⟨n, b1, b2, b3, b4⟩
    · exact .inr ⟨b3, b2, b1⟩
    · exact .inl ⟨n, _, b1, by omega, b3, b4, by rw [b3]; exact (printed_iff _ _).mp rfl⟩
  · rcases W with ⟨b1, b2, b3⟩ | ⟨n, b1, b2, b3, b4⟩
    · exact .inr ⟨fun n hn => by have := b3 n hn; omega, b2, b1⟩
    · exact .inl ⟨n, _, b1, by omega, b3, b4, by rw [b3]; exact (printed_iff _ _).mp rfl⟩
  · rcases T with ⟨b1, b2, b3⟩ | ⟨n, b1, b2, b3, b4, b5⟩
    · exact .inr ⟨fun n hn => by have := b3 n hn; omega, b2, b1⟩
    · exact .inl ⟨n, _, b1, b2, by omega, b4, b5, (printed_iff _ _).mp rfl⟩
  · rintro rfl
    rcases hk with ⟨-, rfl, rfl⟩ | ⟨a, g, -⟩
    · rw [hus, ho0.2.2.2]
      rcases Z with ⟨z1, z2, z3⟩ | ⟨n, z1, z2, z3⟩
      · refine .inr ⟨fun n hn => ?_, z2, z1⟩
        rw [← requested_says, z3] at hn
        cases hn
      · exact .inl ⟨n, _, (requested_says _ _ _ _).mp z1, z2, z3, (printed_iff _ _).mp rfl⟩
    · cases g
  · rintro actual rfl
    rcases hk with ⟨g, -⟩ | ⟨a, g, hu', ho'⟩
    · cases g
    · cases g
      refine ⟨by rw [ho'], ?_⟩
      rw [hu']
      unfold srvReadSize
      rcases Z with ⟨z1, z2, z3⟩ | ⟨n, z1, z2, z3⟩
      · refine .inr ⟨fun n hn => ?_, ?_⟩
        · rw [← requested_says, z3] at hn
          cases hn
        · rw [z1] at hus
          cases actual <;> simp only [hus]
      · rw [z3] at hus
        simp only [hus]
        cases actual with
        | none => exact .inr ⟨fun _ _ => rfl, by simp [Exts.remove]⟩
        | some size =>
          refine .inl ?_
          by_cases hs : size = 0
          · subst hs
            refine ⟨n, decimal n, (requested_says _ _ _ _).mp z1, by simp [hus], 0, rfl, ?_⟩
            rw [if_pos rfl]
            exact (printed_iff _ _).mp rfl
          · refine ⟨n, decimal size, (requested_says _ _ _ _).mp z1, ?_, size, rfl, ?_⟩
            · have : size > 0 := by omega
              simp [this, Exts.insert]
            · rw [if_neg hs]
              exact (printed_iff _ _).mp rfl

/-! ### The client -/

/-- **C17**, in terms of numerals: from an accepted option acknowledgement the client takes just the numbers which are written in it; what is not confirmed has the
default of the protocol. A confirmed size which is no number counts as zero. -/
theorem c17_text (S : SigScheme) (hasKey : Bool) (known : Option Bytes) (used : Exts) (o : Opts) (se : Exts)
    (o' : Opts) (rk : Option RemoteKeys) (sent : List Packet)
    (h : cliOack S hasKey known used o se = (.ok (o', rk), sent)) :
    (se .blockSize = none ∧ o'.blockSize = 512 ∨ Says se .blockSize 65535 o'.blockSize ∧ 512 ≤ o'.blockSize ∧ o'.blockSize ≤ o.blockSize) ∧
    (se .windowSize = none ∧ o'.window = 1 ∨ Says se .windowSize 65535 o'.window ∧ 1 ≤ o'.window ∧ o'.window ≤ o.window) ∧
    (se .timeout = none ∧ o'.retry = 80 ∨ ∃ n, Says se .timeout 255 n ∧ 1 ≤ n ∧ o'.retry = n * 1000) ∧
    (se .transferSize = none ∧ o'.fileSize = o.fileSize ∨
      ∃ t n, se .transferSize = some t ∧ o'.fileSize = some n ∧ (Numeral t n ∧ n < 2 ^ 64 ∨ n = 0 ∧ ∀ m, Numeral t m → 2 ^ 64 ≤ m) ∧
        (o.fileSize = none ∨ o.fileSize = some 0 ∨ o.fileSize = some n)) := by
  unfold cliOack at h
  split at h
  · rename_i hv
    split at h
    · cases h
    · rename_i o1 rk1 hp
      have hn : ∃ o2, cliNumbers se o = .ok o2 ∧ o'.blockSize = o2.blockSize ∧ o'.window = o2.window ∧
          o'.retry = o2.retry ∧ o'.fileSize = o2.fileSize := by
        have : o1 = o' := by
          split at h
          · cases h
          · simp only [Prod.mk.injEq, Except.ok.injEq] at h; exact h.1.1
        subst this
        unfold cliParse at hp
        split at hp
        · cases hp
        · rename_i o2 h2
          refine ⟨o2, h2, ?_⟩
          repeat' split at hp
          all_goals first
            | (simp only [Except.ok.injEq, Prod.mk.injEq] at hp; rw [← hp.1]; done)
            | (simp only [Except.ok.injEq, Prod.mk.injEq] at hp; rw [← hp.1]; exact ⟨rfl, rfl, rfl, rfl⟩)
            | cases hp
      obtain ⟨o2, hn, e1, e2, e3, e4⟩ := hn
      obtain ⟨c1, c2, c3, c4, -⟩ := cliNumbers_ok hn
      rw [e1, e2, e3, e4]
      refine ⟨?_, ?_, ?_, ?_⟩
      · rcases c1 with c | ⟨t, g1, g2, g3⟩
        · exact .inl c
        · exact .inr ⟨⟨t, g1, (numeral_iff _ _ _).mp g2⟩, g3⟩
      · rcases c2 with c | ⟨t, g1, g2, g3⟩
        · exact .inl c
        · exact .inr ⟨⟨t, g1, (numeral_iff _ _ _).mp g2⟩, g3⟩
      · rcases c3 with c | ⟨t, n, g1, g2, g3⟩
        · exact .inl c
        · exact .inr ⟨n, ⟨t, g1, (numeral_iff _ _ _).mp g2⟩, g3⟩
      · rcases c4 with c | ⟨t, g1, g2, g3⟩
        · exact .inl c
        · rw [g2] at g3
          refine .inr ⟨t, _, g1, g2, ?_, ?_⟩
          · cases hq : parseUInt (2 ^ 64 - 1) t with
            | none =>
              refine .inr ⟨rfl, fun m hm => ?_⟩
              by_cases hlt : m ≤ 2 ^ 64 - 1
              · have := (numeral_iff _ _ _).mpr ⟨hm, hlt⟩
                rw [hq] at this
                cases this
              · omega
            | some n =>
              have := (numeral_iff _ _ _).mp hq
              exact .inl ⟨this.1, by simp only [Option.getD_some]; omega⟩
          · rcases g3 with g | g | g
            · exact .inl g
            · exact .inr (.inl g)
            · exact .inr (.inr g.symm)
  · cases h

/-! ### Examples -/

/-- `+0512` means 512, but is not how 512 is printed; `+` and `5x` mean nothing. -/
example : Numeral (ascii "+0512") 512 ∧ ¬ Printed (ascii "+0512") 512 ∧ Printed (ascii "512") 512 ∧
    (∀ n, ¬ Numeral (ascii "+") n) ∧ ∀ n, ¬ Numeral (ascii "5x") n := by
  refine ⟨⟨[0, 5, 1, 2], by decide, by decide, by decide, by decide⟩, ?_, ⟨[5, 1, 2], by decide, by decide, by decide, by decide, by decide⟩, ?_, ?_⟩
  · rw [← printed_iff]; decide +kernel
  · intro n h
    have := (numeral_iff n _ n).mpr ⟨h, Nat.le_refl _⟩
    have e : parseUInt n (ascii "+") = none := rfl
    rw [e] at this
    cases this
  · rintro n ⟨ds, -, h2, h3, -⟩
    have h120 : (120 : UInt8) ∈ ds.map digit := by
      rcases h3 with h3 | h3
      · rw [← h3]; decide
      · have h4 := congrArg List.head? h3
        exact absurd h4 (by rw [List.head?_cons]; decide)
    obtain ⟨d, hd, he⟩ := List.mem_map.mp h120
    have := congrArg UInt8.toNat he
    rw [digit_toNat (h2 d hd)] at this
    have := h2 d hd
    change 48 + d = 120 at *
    omega

/-- A server with blocks of at most 1000 bytes, windows of at most 4 and timeouts of at most two seconds: of `blksize=+01428`, `windowsize=x`, `timeout=3` and
`tsize=0` in a download of 77 bytes it confirms `blksize=1000` and `tsize=77`. -/
example : (match srvNegotiate (S := ⟨fun _ => true, fun _ _ _ => true⟩) ⟨1000, 4, 2000, 100, false, none, none, false⟩ [] .none
    (((Exts.empty.insert .blockSize (ascii "+01428")).insert .windowSize (ascii "x")).insert .timeout (ascii "3") |>.insert .transferSize (ascii "0"))
    (.read (some 77)) with
  | .ok (u, o, k) => decide (u .blockSize = some (ascii "1000")) && decide (u .windowSize = none) && decide (u .timeout = none) &&
      decide (u .transferSize = some (ascii "77")) && decide (o.blockSize = 1000) && decide (o.window = 1) && decide (o.retry = 80) && k.isNone
  | _ => false) = true := by decide +kernel

/-- The client takes 600 for the `+600` which is confirmed. -/
example : (match cliOack ⟨fun _ => true, fun _ _ _ => true⟩ true none (Exts.empty.insert .blockSize (ascii "1024"))
    ⟨1024, 80, none, .none, 2⟩ (Exts.empty.insert .blockSize (ascii "+600")) with
  | (.ok (o, _), []) => decide (o.blockSize = 600)
  | _ => false) = true := by decide +kernel

end Tftp

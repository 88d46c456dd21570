import Verif.Utf8
import Verif.Path
import Verif.KeyFiles
import Verif.Listing
/-
What `str::trim` does to a text, in terms of its characters: Trim.lean against the Unicode property White_Space, and C19, C35 and C58
in these terms.
-/
namespace Tftp
open Spec

/-! ### Specification -/

/-- Unicode: the code points with the property White_Space (PropList.txt). -/
def Spec.White (c : Nat) : Prop :=
  9 ≤ c ∧ c ≤ 13 ∨ c = 0x20 ∨ c = 0x85 ∨ c = 0xA0 ∨ c = 0x1680 ∨ 0x2000 ≤ c ∧ c ≤ 0x200A ∨ c = 0x2028 ∨ c = 0x2029 ∨ c = 0x202F ∨
    c = 0x205F ∨ c = 0x3000

instance (c : Nat) : Decidable (White c) := by unfold White; infer_instance

/-- A text without the white space around it. -/
def Spec.stripped (cs : List Nat) : List Nat := ((cs.dropWhile fun c => decide (White c)).reverse.dropWhile fun c => decide (White c)).reverse

/-- A text as bytes. -/
def Spec.encoded (cs : List Nat) : Bytes := cs.flatMap utf8

/-! ### One character -/

theorem ofNat_eq {n : Nat} (h : n < 256) {x : UInt8} (e : UInt8.ofNat n = x) : n = x.toNat := by
  rw [← e, toNat_of h]

theorem white_cases {c : Nat} (h : White c) : c = 9 ∨ c = 10 ∨ c = 11 ∨ c = 12 ∨ c = 13 ∨ c = 0x20 ∨ c = 0x85 ∨ c = 0xA0 ∨ c = 0x1680 ∨
    c = 0x2000 ∨ c = 0x2001 ∨ c = 0x2002 ∨ c = 0x2003 ∨ c = 0x2004 ∨ c = 0x2005 ∨ c = 0x2006 ∨ c = 0x2007 ∨ c = 0x2008 ∨ c = 0x2009 ∨
    c = 0x200A ∨ c = 0x2028 ∨ c = 0x2029 ∨ c = 0x202F ∨ c = 0x205F ∨ c = 0x3000 := by
  unfold White at h; omega

theorem wsFront_white {c : Nat} (b : Bytes) (h : White c) : wsFront (utf8 c ++ b) = some b := by
  rcases white_cases h with rfl | rfl | rfl | rfl | rfl | rfl | rfl | rfl | rfl | rfl | rfl | rfl | rfl | rfl | rfl | rfl | rfl | rfl | rfl |
    rfl | rfl | rfl | rfl | rfl | rfl <;> rfl

theorem wsBack_white {c : Nat} (b : Bytes) (h : White c) : wsBack ((utf8 c).reverse ++ b) = some b := by
  rcases white_cases h with rfl | rfl | rfl | rfl | rfl | rfl | rfl | rfl | rfl | rfl | rfl | rfl | rfl | rfl | rfl | rfl | rfl | rfl | rfl |
    rfl | rfl | rfl | rfl | rfl | rfl <;> rfl

/-- The four shapes of an encoding, by the numbers of its bytes. -/
theorem utf8_shape {c : Nat} (h : Scalar c) :
    (∃ x : UInt8, utf8 c = [x] ∧ x.toNat = c ∧ c < 0x80) ∨
    (∃ x y : UInt8, utf8 c = [x, y] ∧ x.toNat = 0xC0 + c / 64 ∧ y.toNat = 0x80 + c % 64 ∧ 0x80 ≤ c ∧ c < 0x800) ∨
    (∃ x y z : UInt8, utf8 c = [x, y, z] ∧ x.toNat = 0xE0 + c / 4096 ∧ y.toNat = 0x80 + c / 64 % 64 ∧ z.toNat = 0x80 + c % 64 ∧
      0x800 ≤ c ∧ c < 0x10000) ∨
    (∃ x y z w : UInt8, utf8 c = [x, y, z, w] ∧ x.toNat = 0xF0 + c / 262144 ∧ y.toNat = 0x80 + c / 4096 % 64 ∧
      z.toNat = 0x80 + c / 64 % 64 ∧ w.toNat = 0x80 + c % 64 ∧ 0x10000 ≤ c ∧ c < 0x110000) := by
  unfold Scalar at h
  unfold utf8
  split
  · exact .inl ⟨_, rfl, toNat_of (by omega), by omega⟩
  · split
    · exact .inr (.inl ⟨_, _, rfl, toNat_of (by omega), toNat_of (by omega), by omega, by omega⟩)
    · split
      · exact .inr (.inr (.inl ⟨_, _, _, rfl, toNat_of (by omega), toNat_of (by omega), toNat_of (by omega), by omega, by omega⟩))
      · exact .inr (.inr (.inr ⟨_, _, _, _, rfl, toNat_of (by omega), toNat_of (by omega), toNat_of (by omega), toNat_of (by omega),
          by omega, by omega⟩))

theorem wsFront_none {c : Nat} (b : Bytes) (hs : Scalar c) (h : ¬ White c) : wsFront (utf8 c ++ b) = none := by
  cases hw : wsFront (utf8 c ++ b) with
  | none => rfl
  | some r =>
    exfalso
    apply h
    unfold White
    have key : ∀ {x y : UInt8}, x = y → x.toNat = y.toNat := fun e => congrArg _ e
    rcases utf8_shape hs with ⟨x, e, h1, h2⟩ | ⟨x, y, e, h1, h2, h3⟩ | ⟨x, y, z, e, h1, h2, h3, h4⟩ | ⟨x, y, z, w, e, h1, h2, h3, h4, h5⟩ <;>
    · rw [e] at hw
      unfold wsFront at hw
      split at hw <;> first
        | cases hw; done
        | (rename_i heq
           simp only [List.cons_append, List.nil_append, List.cons.injEq] at heq
           simp only [← UInt8.toNat_inj] at heq
           first
             | (have g := heq.1; simp only [UInt8.reduceToNat] at heq; omega)
             | (split at hw
                · rename_i hc
                  simp only [UInt8.le_iff_toNat_le, ← UInt8.toNat_inj, UInt8.reduceToNat] at hc heq
                  omega
                · cases hw))

theorem wsBack_none {c : Nat} (b : Bytes) (hs : Scalar c) (h : ¬ White c) : wsBack ((utf8 c).reverse ++ b) = none := by
  cases hw : wsBack ((utf8 c).reverse ++ b) with
  | none => rfl
  | some r =>
    exfalso
    apply h
    unfold White
    have hsc := hs
    unfold Scalar at hsc
    rcases utf8_shape hs with ⟨x, e, h1, h2⟩ | ⟨x, y, e, h1, h2, h3⟩ | ⟨x, y, z, e, h1, h2, h3, h4⟩ | ⟨x, y, z, w, e, h1, h2, h3, h4, h5⟩ <;>
    · rw [e] at hw
      unfold wsBack at hw
      split at hw <;> first
        | cases hw; done
        | (rename_i heq
           simp only [List.reverse_cons, List.reverse_nil, List.cons_append, List.nil_append, List.cons.injEq] at heq
           simp only [← UInt8.toNat_inj] at heq
           first
             | (have g := heq.1; simp only [UInt8.reduceToNat] at heq; omega)
             | (split at hw
                · rename_i hc
                  simp only [UInt8.le_iff_toNat_le, ← UInt8.toNat_inj, UInt8.reduceToNat] at hc heq
                  omega
                · cases hw))

/-! ### Texts -/

theorem trimStart_encoded (cs : List Nat) (h : ∀ c ∈ cs, Scalar c) :
    trimStart (encoded cs) = encoded (cs.dropWhile fun c => decide (White c)) := by
  induction cs with
  | nil => exact trimStart_none rfl
  | cons c cs ih =>
    have e : encoded (c :: cs) = utf8 c ++ encoded cs := rfl
    by_cases hw : White c
    · rw [List.dropWhile_cons_of_pos (by simpa using hw), ← ih fun d hd => h d (by simp [hd]), e]
      exact trimStart_some (wsFront_white _ hw)
    · rw [List.dropWhile_cons_of_neg (by simpa using hw), e]
      exact trimStart_none (wsFront_none _ (h c (by simp)) hw)

theorem trimBack_encoded (cs : List Nat) (h : ∀ c ∈ cs, Scalar c) :
    trimBack (cs.flatMap fun c => (utf8 c).reverse) = (cs.dropWhile fun c => decide (White c)).flatMap fun c => (utf8 c).reverse := by
  induction cs with
  | nil => exact trimBack_none rfl
  | cons c cs ih =>
    rw [List.flatMap_cons]
    by_cases hw : White c
    · rw [List.dropWhile_cons_of_pos (by simpa using hw), ← ih fun d hd => h d (by simp [hd])]
      exact trimBack_some (wsBack_white _ hw)
    · rw [List.dropWhile_cons_of_neg (by simpa using hw)]
      exact trimBack_none (wsBack_none _ (h c (by simp)) hw)

theorem encoded_reverse (cs : List Nat) : (encoded cs).reverse = cs.reverse.flatMap fun c => (utf8 c).reverse := by
  induction cs with
  | nil => rfl
  | cons c cs ih =>
    have e : encoded (c :: cs) = utf8 c ++ encoded cs := rfl
    rw [e, List.reverse_append, ih, List.reverse_cons, List.flatMap_append]
    simp

theorem flatMap_reverse (cs : List Nat) : (cs.flatMap fun c => (utf8 c).reverse).reverse = encoded cs.reverse := by
  have := congrArg List.reverse (encoded_reverse cs.reverse)
  rw [List.reverse_reverse, List.reverse_reverse] at this
  exact this.symm

/-- The model's `trim` removes exactly the white space characters around a text. -/
theorem trim_encoded (cs : List Nat) (h : ∀ c ∈ cs, Scalar c) : trim (encoded cs) = encoded (stripped cs) := by
  unfold trim stripped
  rw [trimStart_encoded cs h, encoded_reverse, trimBack_encoded _ (fun c hc => h c ?_), flatMap_reverse]
  exact List.dropWhile_sublist _ |>.subset (List.mem_reverse.mp hc)

theorem encoded_eq_nil {cs : List Nat} : encoded cs = [] ↔ cs = [] := by
  cases cs with
  | nil => exact ⟨fun _ => rfl, fun _ => rfl⟩
  | cons c cs =>
    constructor
    · intro h
      have e : encoded (c :: cs) = utf8 c ++ encoded cs := rfl
      have hl := congrArg List.length h
      rw [e, List.length_append] at hl
      have : 0 < (utf8 c).length := by
        unfold utf8
        rw [List.length_map]
        split
        · simp
        · split
          · simp
          · split <;> simp
      simp only [List.length_nil] at hl
      omega
    · intro h; cases h

/-- A text which begins with an ASCII byte begins with that character. -/
theorem encoded_ascii {cs : List Nat} (h : ∀ c ∈ cs, Scalar c) {x : UInt8} (hx : x.toNat < 128) {b : Bytes} (e : encoded cs = x :: b) :
    ∃ r, cs = x.toNat :: r ∧ encoded r = b := by
  cases cs with
  | nil => cases e
  | cons c cs =>
    have e' : encoded (c :: cs) = utf8 c ++ encoded cs := rfl
    rw [e'] at e
    rcases utf8_shape (h c (by simp)) with ⟨x', u, h1, h2⟩ | ⟨x', y, u, h1, h2, h3⟩ | ⟨x', y, z, u, h1, h2, h3, h4⟩ |
      ⟨x', y, z, w, u, h1, h2, h3, h4, h5⟩ <;> rw [u] at e <;> simp only [List.cons_append, List.nil_append, List.cons.injEq] at e
    · obtain ⟨rfl, rfl⟩ := e
      exact ⟨cs, by rw [h1], rfl⟩
    all_goals (obtain ⟨rfl, -⟩ := e; omega)

theorem encoded_dots {cs : List Nat} (h : ∀ c ∈ cs, Scalar c) :
    (encoded cs = [46] ↔ cs = [46]) ∧ (encoded cs = [46, 46] ↔ cs = [46, 46]) ∧ (encoded cs = [47] ↔ cs = [47]) := by
  have one : ∀ x : UInt8, x.toNat < 128 → (encoded cs = [x] ↔ cs = [x.toNat]) := by
    intro x hx
    constructor
    · intro e
      obtain ⟨r, rfl, hr⟩ := encoded_ascii h hx e
      rw [encoded_eq_nil.mp hr]
    · rintro rfl
      have hu : utf8 x.toNat = [x] := by
        unfold utf8
        rw [if_pos hx]
        simp
      show utf8 x.toNat ++ [] = [x]
      rw [hu]; rfl
  refine ⟨one 46 (by decide), ?_, one 47 (by decide)⟩
  constructor
  · intro e
    obtain ⟨r, rfl, hr⟩ := encoded_ascii h (by decide) e
    obtain ⟨r', rfl, hr'⟩ := encoded_ascii (fun c hc => h c (by simp [hc])) (by decide) hr
    rw [encoded_eq_nil.mp hr']
    rfl
  · rintro rfl; decide

theorem stripped_subset {cs : List Nat} {c : Nat} (h : c ∈ stripped cs) : c ∈ cs := by
  unfold stripped at h
  have h := (List.dropWhile_sublist _).subset (List.mem_reverse.mp h)
  exact (List.dropWhile_sublist _).subset (List.mem_reverse.mp h)

/-! ### C19: requested names -/

/-- Specification: a component which denotes something: without the white space around it, it is not empty and not `.` or `..`. -/
def Spec.Denotes (cs : List Nat) : Prop := stripped cs ≠ [] ∧ stripped cs ≠ [46] ∧ stripped cs ≠ [46, 46]

instance (cs : List Nat) : Decidable (Denotes cs) := by unfold Denotes; infer_instance

theorem usable_encoded {cs : List Nat} (h : ∀ c ∈ cs, Scalar c) (hn : 47 ∉ cs) : usable (encoded cs) = decide (Denotes cs) := by
  have hs : ∀ c ∈ stripped cs, Scalar c := fun c hc => h c (stripped_subset hc)
  obtain ⟨d1, d2, d3⟩ := encoded_dots hs
  have h47 : stripped cs ≠ [47] := fun e => hn (stripped_subset (by rw [e]; simp))
  unfold usable
  rw [trim_encoded cs h]
  by_cases a : stripped cs = []
  · have : ¬ Denotes cs := fun x => x.1 a
    simp [encoded_eq_nil.mpr a, this]
  · by_cases b : stripped cs = [46]
    · have : ¬ Denotes cs := fun x => x.2.1 b
      simp [d1.mpr b, this]
    · by_cases c : stripped cs = [46, 46]
      · have : ¬ Denotes cs := fun x => x.2.2 c
        simp [d2.mpr c, this]
      · have e1 : encoded (stripped cs) ≠ [] := fun e => a (encoded_eq_nil.mp e)
        have e2 : encoded (stripped cs) ≠ [46] := fun e => b (d1.mp e)
        have e3 : encoded (stripped cs) ≠ [46, 46] := fun e => c (d2.mp e)
        have e4 : encoded (stripped cs) ≠ [47] := fun e => h47 (d3.mp e)
        have : Denotes cs := ⟨a, b, c⟩
        simp [e1, e2, e3, e4, this]

theorem encoded_no_slash {cs : List Nat} (h : ∀ c ∈ cs, Scalar c) (hn : 47 ∉ cs) : (47 : UInt8) ∉ encoded cs := by
  intro hm
  unfold encoded at hm
  obtain ⟨c, hc, hx⟩ := List.mem_flatMap.mp hm
  have hne : c ≠ 47 := fun e => hn (e ▸ hc)
  rcases utf8_shape (h c hc) with ⟨x, e, h1, h2⟩ | ⟨x, y, e, h1, h2, h3⟩ | ⟨x, y, z, e, h1, h2, h3, h4⟩ | ⟨x, y, z, w, e, h1, h2, h3, h4, h5⟩ <;>
  · rw [e] at hx
    simp only [List.mem_cons, List.not_mem_nil, or_false, ← UInt8.toNat_inj, UInt8.reduceToNat] at hx
    omega

/-- **C19**, in terms of characters: a name is normalised to the components which denote something, in order; it is refused if there
are none. -/
theorem c19_text (cs : List (List Nat)) (h0 : cs ≠ []) (h : ∀ c ∈ cs, (∀ x ∈ c, Scalar x) ∧ 47 ∉ c) :
    normalizeName (Spec.pathOf (cs.map encoded)) =
      if cs.filter (fun c => decide (Denotes c)) = [] then none
      else some (Spec.pathOf ((cs.filter fun c => decide (Denotes c)).map encoded)) := by
  have hc : Spec.Components (cs.map encoded) := by
    refine ⟨by simpa using h0, fun c hc => ?_⟩
    obtain ⟨d, hd, rfl⟩ := List.mem_map.mp hc
    exact encoded_no_slash (h d hd).1 (h d hd).2
  have hf : (cs.map encoded).filter usable = (cs.filter fun c => decide (Denotes c)).map encoded := by
    rw [List.filter_map]
    congr 1
    apply List.filter_congr
    intro c hcc
    exact usable_encoded (h c hcc).1 (h c hcc).2
  rw [c19_normalize _ hc, hf]
  by_cases hn : cs.filter (fun c => decide (Denotes c)) = []
  · rw [if_pos hn, if_pos (by rw [hn]; rfl)]
  · rw [if_neg hn, if_neg (by simpa using hn)]

theorem dropWhile_nil_iff (p : Nat → Bool) (l : List Nat) : l.dropWhile p = [] ↔ ∀ x ∈ l, p x = true := by
  induction l with
  | nil => simp
  | cons a l ih =>
    by_cases h : p a = true
    · rw [List.dropWhile_cons_of_pos h, ih]
      simp [h]
    · rw [List.dropWhile_cons_of_neg h]
      simp [h]

/-! ### C35, C34: lines of key files -/

/-- **C35**, in terms of characters: a line counts as blank exactly if all its characters are white space; otherwise it is left out
exactly if its first character is `#`. -/
theorem c35_text (cs : List Nat) (h : ∀ c ∈ cs, Scalar c) :
    skipLine (encoded cs) = true ↔ cs.head? = some 35 ∨ ∀ c ∈ cs, White c := by
  have hst : stripped cs = [] ↔ ∀ c ∈ cs, White c := by
    unfold stripped
    rw [List.reverse_eq_nil_iff]
    constructor
    · intro he
      have h1 : cs.dropWhile (fun c => decide (White c)) = [] := by
        cases hd : cs.dropWhile (fun c => decide (White c)) with
        | nil => rfl
        | cons a r =>
          rw [hd] at he
          have h2 : ∀ x ∈ (a :: r).reverse, decide (White x) = true := (dropWhile_nil_iff _ _).mp he
          have h3 := h2 a (by simp)
          have h4 := List.head?_dropWhile_not (fun c => decide (White c)) cs
          rw [hd] at h4
          simp only [List.head?_cons] at h4
          rw [h3] at h4
          cases h4
      intro c hc
      simpa using (dropWhile_nil_iff _ _).mp h1 c hc
    · intro hall
      have : cs.dropWhile (fun c => decide (White c)) = [] := (dropWhile_nil_iff _ _).mpr fun c hc => by simpa using hall c hc
      rw [this]; rfl
  have hhead : (encoded cs).head? = some 35 ↔ cs.head? = some 35 := by
    constructor
    · intro hh
      cases he : encoded cs with
      | nil => rw [he] at hh; cases hh
      | cons x b =>
        rw [he, List.head?_cons] at hh
        injection hh with hh
        subst hh
        obtain ⟨r, rfl, -⟩ := encoded_ascii h (by decide) he
        rfl
    · intro hh
      cases cs with
      | nil => cases hh
      | cons c cs =>
        simp only [List.head?_cons, Option.some.injEq] at hh
        subst hh
        rfl
  unfold skipLine
  rw [trim_encoded cs h]
  simp only [Bool.or_eq_true, beq_iff_eq, List.isEmpty_iff, encoded_eq_nil, hst, hhead]

/-! ### C58: listed names -/

/-- **C58**, in terms of characters: the names which normalisation keeps (`Spec.Kept`) are those which denote something. -/
theorem c58_text (cs : List Nat) (h : ∀ c ∈ cs, Scalar c) : Spec.Kept (encoded cs) ↔ Denotes cs := by
  have hs : ∀ c ∈ stripped cs, Scalar c := fun c hc => h c (stripped_subset hc)
  obtain ⟨d1, d2, -⟩ := encoded_dots hs
  unfold Spec.Kept Denotes
  rw [trim_encoded cs h, ne_eq, ne_eq, ne_eq, encoded_eq_nil, d1, d2]

/-! ### Examples -/

/-- A no-break space, two dots and an ideographic space denote nothing; an `a` between such spaces does. -/
example : ¬ Denotes [0xA0, 46, 46, 0x3000] ∧ Denotes [0xA0, 97, 0x3000] ∧ Denotes [46, 46, 46] := by decide

/-- `a/ .. /é` becomes `a/é`. -/
example : normalizeName (Spec.pathOf ([[97], [0xA0, 46, 46, 0x3000], [0xE9]].map encoded)) = some [97, 47, 0xC3, 0xA9] := by
  rw [c19_text _ (by decide) (by
    intro c hc
    simp only [List.mem_cons, List.not_mem_nil, or_false] at hc
    rcases hc with rfl | rfl | rfl
    all_goals
      refine ⟨fun x hx => ?_, by decide⟩
      simp only [List.mem_cons, List.not_mem_nil, or_false] at hx
      unfold Scalar
      omega)]
  decide

end Tftp

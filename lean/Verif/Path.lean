import Verif.Trim
/-
C19: normalisation of requested file names, src/server/validation.rs:60-97. Names are UTF-8 strings, as bytes
(`String`; the capacity limit of `FilePath` without the `alloc` feature is left out).
-/
namespace Tftp

/-- `str::split('/')`. -/
def splitSlash : Bytes → List Bytes
  | [] => [[]]
  | c :: r =>
    if c = 47 then [] :: splitSlash r
    else match splitSlash r with
      | p :: ps => (c :: p) :: ps
      | [] => [[c]]

/-- src/server/validation.rs:84 the filter: `!matches!(c.trim(), "." | ".." | "/" | "")`. -/
def usable (c : Bytes) : Bool := !(trim c == [46] || trim c == [46, 46] || trim c == [47] || trim c == [])

/-- src/server/validation.rs:78-97 `normalize_remote_name`; `none` is `InvalidFileName`. -/
def normalizeName (name : Bytes) : Option Bytes :=
  let r := ((splitSlash (name.dropWhile (· = 47))).filter usable).foldl (fun f c => f ++ c ++ [47]) []
  let r := r.dropLast
  if r = [] then none else some r

/-- Specification: the path with the given components. -/
def Spec.pathOf (cs : List Bytes) : Bytes := [47].intercalate cs

/-- Specification: a list of components as written between the slashes. -/
def Spec.Components (cs : List Bytes) : Prop := cs ≠ [] ∧ ∀ c ∈ cs, (47 : UInt8) ∉ c

theorem splitSlash_ne_nil (b : Bytes) : splitSlash b ≠ [] := by
  cases b with
  | nil => simp [splitSlash]
  | cons c r =>
    unfold splitSlash
    split
    · simp
    · split <;> simp

theorem splitSlash_no_slash (b : Bytes) : ∀ c ∈ splitSlash b, (47 : UInt8) ∉ c := by
  induction b with
  | nil => simp [splitSlash]
  | cons x r ih =>
    unfold splitSlash
    split
    · intro c hc
      rcases List.mem_cons.mp hc with rfl | hc
      · simp
      · exact ih c hc
    · rename_i hx
      split
      · rename_i p ps hp
        rw [hp] at ih
        intro c hc
        rcases List.mem_cons.mp hc with rfl | hc
        · intro h
          rcases List.mem_cons.mp h with h | h
          · exact hx h.symm
          · exact ih p (by simp) h
        · exact ih c (by simp [hc])
      · intro c hc
        simp only [List.mem_singleton] at hc
        subst hc
        simpa using fun h => hx h.symm

theorem pathOf_cons_cons (a b : Bytes) (r : List Bytes) :
    Spec.pathOf (a :: b :: r) = a ++ 47 :: Spec.pathOf (b :: r) := by
  simp [Spec.pathOf, List.intercalate, List.intersperse]

theorem pathOf_single (a : Bytes) : Spec.pathOf [a] = a := by
  simp [Spec.pathOf, List.intercalate, List.intersperse]

/-- Every name is the path of its components. -/
theorem pathOf_splitSlash (b : Bytes) : Spec.pathOf (splitSlash b) = b := by
  induction b with
  | nil => rfl
  | cons x r ih =>
    unfold splitSlash
    split
    · rename_i hx
      subst hx
      cases h : splitSlash r with
      | nil => exact absurd h (splitSlash_ne_nil r)
      | cons p ps => rw [h] at ih; rw [pathOf_cons_cons, ih]; rfl
    · split
      · rename_i p ps hp
        rw [hp] at ih
        cases ps with
        | nil => rw [pathOf_single] at ih ⊢; rw [ih]
        | cons q qs => rw [pathOf_cons_cons] at ih ⊢; rw [← ih]; rfl
      · rename_i hp
        exact absurd hp (splitSlash_ne_nil r)

theorem splitSlash_append (a r : Bytes) (h : (47 : UInt8) ∉ a) : splitSlash (a ++ 47 :: r) = a :: splitSlash r := by
  induction a with
  | nil => simp [splitSlash]
  | cons x a ih =>
    simp only [List.mem_cons, not_or] at h
    simp only [List.cons_append, splitSlash]
    rw [if_neg (fun e => h.1 e.symm), ih h.2]

theorem splitSlash_single (a : Bytes) (h : (47 : UInt8) ∉ a) : splitSlash a = [a] := by
  induction a with
  | nil => rfl
  | cons x a ih =>
    simp only [List.mem_cons, not_or] at h
    simp only [splitSlash]
    rw [if_neg (fun e => h.1 e.symm), ih h.2]

theorem splitSlash_pathOf (cs : List Bytes) (h : Spec.Components cs) : splitSlash (Spec.pathOf cs) = cs := by
  obtain ⟨h0, h⟩ := h
  induction cs with
  | nil => exact absurd rfl h0
  | cons a r ih =>
    cases r with
    | nil => rw [pathOf_single]; exact splitSlash_single a (h a (by simp))
    | cons b r =>
      rw [pathOf_cons_cons, splitSlash_append _ _ (h a (by simp)), ih (by simp) (fun c hc => h c (by simp [hc]))]

theorem trimStart_some {b r : Bytes} (h : wsFront b = some r) : trimStart b = trimStart r := by
  rw [trimStart]; split <;> simp_all

theorem trimStart_none {b : Bytes} (h : wsFront b = none) : trimStart b = b := by
  rw [trimStart]; split <;> simp_all

theorem trimBack_some {b r : Bytes} (h : wsBack b = some r) : trimBack b = trimBack r := by
  rw [trimBack]; split <;> simp_all

theorem trimBack_none {b : Bytes} (h : wsBack b = none) : trimBack b = b := by
  rw [trimBack]; split <;> simp_all

theorem trim_id {b : Bytes} (h1 : wsFront b = none) (h2 : wsBack b.reverse = none) : trim b = b := by
  unfold trim
  rw [trimStart_none h1, trimBack_none h2, List.reverse_reverse]

theorem trim_nil : trim [] = [] := trim_id rfl rfl
theorem trim_dot : trim [46] = [46] := trim_id rfl rfl
theorem trim_dotdot : trim [46, 46] = [46, 46] := trim_id rfl rfl

theorem usable_nil : usable [] = false := by simp [usable, trim_nil]

/-- Leading slashes only add empty components. -/
theorem filter_dropSlash (b : Bytes) :
    (splitSlash (b.dropWhile (· = 47))).filter usable = (splitSlash b).filter usable := by
  induction b with
  | nil => rfl
  | cons x r ih =>
    by_cases hx : x = 47
    · subst hx
      rw [List.dropWhile_cons_of_pos (by simp), ih]
      simp [splitSlash, usable_nil]
    · rw [List.dropWhile_cons_of_neg (by simpa using hx)]

theorem foldl_slash (cs : List Bytes) (f : Bytes) (h : cs ≠ []) :
    (cs.foldl (fun f c => f ++ c ++ [47]) f).dropLast = f ++ Spec.pathOf cs := by
  induction cs generalizing f with
  | nil => exact absurd rfl h
  | cons a r ih =>
    cases r with
    | nil => simp [pathOf_single, List.dropLast_append_of_ne_nil]
    | cons b r => rw [List.foldl_cons, ih _ (by simp), pathOf_cons_cons]; simp

theorem usable_ne_nil {c : Bytes} (h : usable c = true) : c ≠ [] := by
  rintro rfl
  rw [usable_nil] at h; cases h

theorem pathOf_ne_nil {cs : List Bytes} (h0 : cs ≠ []) (h : ∀ c ∈ cs, usable c = true) : Spec.pathOf cs ≠ [] := by
  cases cs with
  | nil => exact absurd rfl h0
  | cons a r =>
    have ha := usable_ne_nil (h a (by simp))
    cases r with
    | nil => rw [pathOf_single]; exact ha
    | cons b r => rw [pathOf_cons_cons]; simp [ha]

/-- **C19**: the normalised name consists of exactly the usable components of the requested name, in order; a name without
usable component is rejected. `Spec.Components cs` covers every name, see `pathOf_splitSlash`. -/
theorem c19_normalize (cs : List Bytes) (h : Spec.Components cs) :
    normalizeName (Spec.pathOf cs) =
      if cs.filter usable = [] then none else some (Spec.pathOf (cs.filter usable)) := by
  unfold normalizeName
  rw [filter_dropSlash, splitSlash_pathOf cs h]
  simp only
  by_cases h0 : cs.filter usable = []
  · rw [if_pos h0, h0]; rfl
  · rw [if_neg h0, foldl_slash _ _ h0, List.nil_append,
      if_neg (pathOf_ne_nil h0 fun c hc => (List.mem_filter.mp hc).2)]

theorem wsFront_mem {b r : Bytes} (h : wsFront b = some r) {x : UInt8} (hx : x ∈ r) : x ∈ b := by
  unfold wsFront at h
  split at h
  all_goals first | (split at h) | skip
  all_goals first | (simp only [Option.some.injEq] at h; subst h; simp [hx]) | cases h

theorem wsBack_mem {b r : Bytes} (h : wsBack b = some r) {x : UInt8} (hx : x ∈ r) : x ∈ b := by
  unfold wsBack at h
  split at h
  all_goals first | (split at h) | skip
  all_goals first | (simp only [Option.some.injEq] at h; subst h; simp [hx]) | cases h

theorem trimStart_mem {x : UInt8} (b : Bytes) (h : x ∈ trimStart b) : x ∈ b := by
  induction b using trimStart.induct with
  | case1 b r hr ih => rw [trimStart] at h; split at h <;> simp_all [wsFront_mem hr]
  | case2 b hr => rw [trimStart] at h; split at h <;> simp_all

theorem trimBack_mem {x : UInt8} (b : Bytes) (h : x ∈ trimBack b) : x ∈ b := by
  induction b using trimBack.induct with
  | case1 b r hr ih => rw [trimBack] at h; split at h <;> simp_all [wsBack_mem hr]
  | case2 b hr => rw [trimBack] at h; split at h <;> simp_all

theorem trim_mem {x : UInt8} {b : Bytes} (h : x ∈ trim b) : x ∈ b := by
  unfold trim at h
  have h := trimBack_mem _ (List.mem_reverse.mp h)
  exact trimStart_mem _ (List.mem_reverse.mp h)

/-- What `usable` components are not. -/
theorem usable_spec {c : Bytes} (h : usable c = true) : c ≠ [] ∧ c ≠ [46] ∧ c ≠ [46, 46] := by
  refine ⟨usable_ne_nil h, ?_, ?_⟩ <;> rintro rfl <;> simp [usable, trim_dot, trim_dotdot] at h

/-- **C19**: whatever name is requested, the path handed to the file system is relative, has at least one component, and no
component is empty, `.` or `..`; all of them are components of the requested name. -/
theorem c19_safe (name p : Bytes) (h : normalizeName name = some p) :
    ∃ cs, Spec.Components cs ∧ p = Spec.pathOf cs ∧ (∀ c ∈ cs, c ≠ [] ∧ c ≠ [46] ∧ c ≠ [46, 46]) ∧
      p.head? ≠ some 47 ∧ p ≠ [] ∧
      ∀ ns, Spec.Components ns → name = Spec.pathOf ns → cs.Sublist ns := by
  rw [← pathOf_splitSlash name, c19_normalize _ ⟨splitSlash_ne_nil name, splitSlash_no_slash name⟩] at h
  split at h
  · cases h
  · rename_i h0
    injection h with h
    have hu : ∀ c ∈ (splitSlash name).filter usable, usable c = true := fun c hc => (List.mem_filter.mp hc).2
    have hc : Spec.Components ((splitSlash name).filter usable) :=
      ⟨h0, fun c hc => splitSlash_no_slash name c (List.mem_filter.mp hc).1⟩
    refine ⟨_, hc, h.symm, fun c hc => usable_spec (hu c hc), ?_, ?_, ?_⟩
    · rw [← h]
      match hm : (splitSlash name).filter usable, h0 with
      | a :: r, _ =>
        have ha := usable_ne_nil (hu a (by simp [hm]))
        have hs := hc.2 a (by simp [hm])
        match a, ha with
        | x :: a, _ =>
          simp only [List.mem_cons, not_or] at hs
          cases r with
          | nil => rw [pathOf_single]; simpa using fun e => hs.1 e.symm
          | cons b r => rw [pathOf_cons_cons]; simpa using fun e => hs.1 e.symm
    · rw [← h]; exact pathOf_ne_nil h0 hu
    · intro ns hns hn
      rw [hn, splitSlash_pathOf ns hns]
      exact List.filter_sublist

/-- **C19**: normalisation is idempotent. -/
theorem c19_idempotent (name p : Bytes) (h : normalizeName name = some p) : normalizeName p = some p := by
  rw [← pathOf_splitSlash name, c19_normalize _ ⟨splitSlash_ne_nil name, splitSlash_no_slash name⟩] at h
  split at h
  · cases h
  · rename_i h0
    injection h with h
    rw [← h, c19_normalize _ ⟨h0, fun c hc => splitSlash_no_slash name c (List.mem_filter.mp hc).1⟩, List.filter_filter]
    simp only [Bool.and_self]
    rw [if_neg h0]

/-- **C19**: a name whose components are all empty, `.`, `..` (with or without surrounding blanks) is rejected, any other is
accepted. -/
theorem c19_rejected_iff (cs : List Bytes) (h : Spec.Components cs) :
    normalizeName (Spec.pathOf cs) = none ↔ ∀ c ∈ cs, trim c = [] ∨ trim c = [46] ∨ trim c = [46, 46] := by
  rw [c19_normalize cs h]
  have key : ∀ c ∈ cs, (usable c = false ↔ trim c = [] ∨ trim c = [46] ∨ trim c = [46, 46]) := by
    intro c hc
    have : trim c ≠ [47] := fun e => h.2 c hc (trim_mem (by rw [e]; simp))
    simp only [usable, Bool.not_eq_false', Bool.or_eq_true, beq_iff_eq]
    constructor
    · rintro (((h | h) | h) | h) <;> simp_all
    · rintro (h | h | h) <;> simp_all
  constructor
  · intro hn c hc
    split at hn
    · rename_i h0
      refine (key c hc).mp ?_
      have := List.filter_eq_nil_iff.mp h0 c hc
      simpa using this
    · cases hn
  · intro hn
    rw [if_pos]
    exact List.filter_eq_nil_iff.mpr fun c hc => by simp [(key c hc).mpr (hn c hc)]

/-- `../x/./ .. /etc//passwd` becomes `x/etc/passwd`. -/
example : normalizeName (ascii "../x/./ .. /etc//passwd") = some (ascii "x/etc/passwd") := by
  have h := c19_normalize [ascii "..", ascii "x", ascii ".", ascii " .. ", ascii "etc", ascii "", ascii "passwd"]
    ⟨by decide, by decide⟩
  have e : [ascii "..", ascii "x", ascii ".", ascii " .. ", ascii "etc", ascii "", ascii "passwd"].filter usable =
      [ascii "x", ascii "etc", ascii "passwd"] := by
    have t : trim (ascii " .. ") = [46, 46] := by
      unfold trim
      rw [trimStart_some (r := [46, 46, 32]) rfl, trimStart_none (b := [46, 46, 32]) rfl,
        trimBack_some (b := [46, 46, 32].reverse) (r := [46, 46]) rfl, trimBack_none rfl]
      rfl
    have t1 : trim (ascii "x") = ascii "x" := trim_id rfl rfl
    have t2 : trim (ascii "etc") = ascii "etc" := trim_id rfl rfl
    have t3 : trim (ascii "passwd") = ascii "passwd" := trim_id rfl rfl
    have t4 : usable (ascii "..") = false := by simp [usable, show ascii ".." = [46, 46] from rfl, trim_dotdot]
    have t5 : usable (ascii ".") = false := by simp [usable, show ascii "." = [46] from rfl, trim_dot]
    have t6 : usable (ascii "") = false := usable_nil
    have t7 : usable (ascii " .. ") = false := by simp [usable, t]
    have t8 : usable (ascii "x") = true := by rw [usable, t1]; decide
    have t9 : usable (ascii "etc") = true := by rw [usable, t2]; decide
    have t10 : usable (ascii "passwd") = true := by rw [usable, t3]; decide
    simp only [List.filter, t4, t5, t6, t7, t8, t9, t10]
  rw [e] at h
  exact h

/-- `/ /../.` has no usable component. -/
example : normalizeName (ascii "/ /../.") = none :=
  (c19_rejected_iff [ascii "", ascii " ", ascii "..", ascii "."] ⟨by decide, by decide⟩).mpr
    (by
      intro c hc
      simp only [List.mem_cons, List.not_mem_nil, or_false] at hc
      rcases hc with rfl | rfl | rfl | rfl
      · exact .inl trim_nil
      · exact .inl (by unfold trim; rw [trimStart_some (r := []) rfl, trimStart_none rfl, trimBack_none rfl]; rfl)
      · exact .inr (.inr trim_dotdot)
      · exact .inr (.inl trim_dot))

end Tftp

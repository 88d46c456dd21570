import Verif.FixedText
import Verif.Fs
import Verif.Utf8
/-
C93: file names in a build without an allocator: `FilePath` is a string of at most 150 bytes (src/lib.rs:41,
src/config.rs:57), and the results of appending to it are ignored where the server normalises a requested name.
-/
namespace Tftp
open Spec

/-! ### The code -/

/-- `heapless::String::push_str`, and `push` of a one byte character, with the result ignored (src/server/validation.rs:86-87 under
`#[allow(unused_must_use)]`): what does not fit is not appended at all. -/
def pushStrIn (cap : Nat) (f s : Bytes) : Bytes := if f.length + s.length ≤ cap then f ++ s else f

/-- `String::pop` (src/server/validation.rs:90): the last character goes, i.e. the continuation bytes at the end and the byte before
them. See `popChar_utf8`. -/
def popChar (b : Bytes) : Bytes := ((b.reverse.dropWhile fun x => decide (128 ≤ x.toNat ∧ x.toNat < 192)).drop 1).reverse

/-- src/server/validation.rs:79-97 `normalize_remote_name` without `alloc`. -/
def normalizeNameIn (cap : Nat) (name : Bytes) : Option Bytes :=
  let r := ((splitSlash (name.dropWhile (· = 47))).filter usable).foldl (fun f c => pushStrIn cap (pushStrIn cap f c) [47]) []
  let r := popChar r
  if r = [] then none else some r

/-- std-binary/src/io.rs:55-90 `create_server_reader` without `alloc`: the canonical path of a file has to be a `FilePath` again
(io.rs:79-82); the text of an absolute path is `/` and the components. -/
def serverReaderIn (cap : Nat) (fs : Fs) (cwd : List Bytes) (cfg : DirCfg) (name : Bytes) : Option RHandle :=
  let req := PPath.parse name
  if validatePath req cfg.maxDepth then
    let dir := PPath.parse cfg.directory
    let path := dir.join req
    let list := match cfg.directoryList with
      | some l => path.endsWith (PPath.parse l)
      | none => false
    let real := if list then path.parent.bind (canonicalize fs cwd) else canonicalize fs cwd path
    match canonicalize fs cwd dir, real with
    | some d, some p =>
      if d.isPrefixOf p then
        if list then if fs p = some .dir then some (.listing p) else none
        else if (47 :: Spec.pathOf p).length ≤ cap then (canonicalize fs cwd ⟨true, p⟩).map .file else none
      else none
    | _, _ => none
  else none

/-! ### `pop` -/

theorem popChar_nil : popChar [] = [] := rfl

theorem popChar_one (b : Bytes) (x : UInt8) (h : x.toNat < 128) : popChar (b ++ [x]) = b := by
  have h' : ¬ (128 ≤ x.toNat ∧ x.toNat < 192) := by omega
  simp only [popChar, List.reverse_append, List.reverse_singleton, List.singleton_append]
  rw [List.dropWhile_cons_of_neg (by simpa using h')]
  simp

theorem popChar_tail (b s : Bytes) (x : UInt8) (hx : ¬ (128 ≤ x.toNat ∧ x.toNat < 192))
    (hs : ∀ y ∈ s, 128 ≤ y.toNat ∧ y.toNat < 192) : popChar (b ++ x :: s) = b := by
  have e : (b ++ x :: s).reverse = s.reverse ++ x :: b.reverse := by simp
  unfold popChar
  rw [e]
  have : ∀ (u : Bytes), (∀ y ∈ u, 128 ≤ y.toNat ∧ y.toNat < 192) →
      (u ++ x :: b.reverse).dropWhile (fun x => decide (128 ≤ x.toNat ∧ x.toNat < 192)) = x :: b.reverse := by
    intro u hu
    induction u with
    | nil => rw [List.nil_append, List.dropWhile_cons_of_neg (by simpa using hx)]
    | cons y u ih =>
      rw [List.cons_append, List.dropWhile_cons_of_pos (by simpa using hu y (by simp))]
      exact ih fun z hz => hu z (by simp [hz])
  rw [this s.reverse fun y hy => hs y (List.mem_reverse.mp hy)]
  simp

/-- `pop` removes exactly the last character of a text. -/
theorem popChar_utf8 (b : Bytes) (c : Nat) (h : Scalar c) : popChar (b ++ utf8 c) = b := by
  have ht : ∀ n, n < 256 → (UInt8.ofNat n).toNat = n := fun n hn => toNat_of hn
  unfold utf8
  unfold Scalar at h
  split
  · exact popChar_one b _ (by rw [ht _ (by omega)]; omega)
  · split
    · refine popChar_tail b [UInt8.ofNat (0x80 + c % 64)] (UInt8.ofNat (0xC0 + c / 64)) ?_ ?_
      · rw [ht _ (by omega)]; omega
      · intro y hy
        rw [List.mem_singleton.mp hy, ht _ (by omega)]; omega
    · split
      · refine popChar_tail b [UInt8.ofNat (0x80 + c / 64 % 64), UInt8.ofNat (0x80 + c % 64)] (UInt8.ofNat (0xE0 + c / 4096)) ?_ ?_
        · rw [ht _ (by omega)]; omega
        · intro y hy
          simp only [List.mem_cons, List.not_mem_nil, or_false] at hy
          rcases hy with rfl | rfl <;> rw [ht _ (by omega)] <;> omega
      · refine popChar_tail b [UInt8.ofNat (0x80 + c / 4096 % 64), UInt8.ofNat (0x80 + c / 64 % 64), UInt8.ofNat (0x80 + c % 64)]
          (UInt8.ofNat (0xF0 + c / 262144)) ?_ ?_
        · rw [ht _ (by omega)]; omega
        · intro y hy
          simp only [List.mem_cons, List.not_mem_nil, or_false] at hy
          rcases hy with rfl | rfl | rfl <;> rw [ht _ (by omega)] <;> omega

/-! ### Normalisation -/

theorem foldl_slash_length (cs : List Bytes) (f : Bytes) :
    f.length ≤ (cs.foldl (fun f c => f ++ c ++ [47]) f).length := by
  induction cs generalizing f with
  | nil => exact Nat.le_refl _
  | cons a r ih =>
    rw [List.foldl_cons]
    refine Nat.le_trans ?_ (ih _)
    simp only [List.length_append]; omega

theorem foldl_in (cap : Nat) (cs : List Bytes) (f : Bytes) (h : (cs.foldl (fun f c => f ++ c ++ [47]) f).length ≤ cap) :
    cs.foldl (fun f c => pushStrIn cap (pushStrIn cap f c) [47]) f = cs.foldl (fun f c => f ++ c ++ [47]) f := by
  induction cs generalizing f with
  | nil => rfl
  | cons a r ih =>
    rw [List.foldl_cons] at h ⊢
    rw [List.foldl_cons]
    have h1 := foldl_slash_length r (f ++ a ++ [47])
    have h2 : (f ++ a ++ [47]).length = f.length + a.length + 1 := by simp only [List.length_append, List.length_singleton]
    have e1 : pushStrIn cap f a = f ++ a := if_pos (by omega)
    have e2 : pushStrIn cap (f ++ a) [47] = f ++ a ++ [47] :=
      if_pos (by simp only [List.length_append, List.length_singleton]; omega)
    rw [e1, e2]
    exact ih _ h

/-- One byte too many: only the last separator is missing. -/
theorem foldl_in_cut (cap : Nat) (cs : List Bytes) (f : Bytes) (hne : cs ≠ [])
    (h : (cs.foldl (fun f c => f ++ c ++ [47]) f).length = cap + 1) :
    cs.foldl (fun f c => pushStrIn cap (pushStrIn cap f c) [47]) f = f ++ Spec.pathOf cs := by
  induction cs generalizing f with
  | nil => exact absurd rfl hne
  | cons a r ih =>
    rw [List.foldl_cons] at h ⊢
    have h1 := foldl_slash_length r (f ++ a ++ [47])
    have h2 : (f ++ a ++ [47]).length = f.length + a.length + 1 := by simp only [List.length_append, List.length_singleton]
    have e1 : pushStrIn cap f a = f ++ a := if_pos (by omega)
    rw [e1]
    cases r with
    | nil =>
      rw [List.foldl_nil] at h ⊢
      rw [pathOf_single]
      exact if_neg (by simp only [List.length_append, List.length_singleton] at h ⊢; omega)
    | cons b r =>
      have h3 := foldl_slash_length r (f ++ a ++ [47] ++ b ++ [47])
      rw [List.foldl_cons] at h
      have e2 : pushStrIn cap (f ++ a) [47] = f ++ a ++ [47] :=
        if_pos (by simp only [List.length_append, List.length_singleton] at h3 ⊢; omega)
      rw [e2, ih _ (by simp) (by rw [List.foldl_cons]; exact h), pathOf_cons_cons]
      simp

theorem pathOf_fold (cs : List Bytes) (hne : cs ≠ []) :
    cs.foldl (fun f c => f ++ c ++ [47]) [] = Spec.pathOf cs ++ [47] := by
  have : ∀ f : Bytes, cs.foldl (fun f c => f ++ c ++ [47]) f = f ++ (Spec.pathOf cs ++ [47]) := by
    induction cs with
    | nil => exact absurd rfl hne
    | cons a r ih =>
      intro f
      rw [List.foldl_cons]
      cases r with
      | nil => rw [List.foldl_nil, pathOf_single]; simp
      | cons b r => rw [ih (by simp), pathOf_cons_cons]; simp
  simpa using this []

theorem pathOf_length_cons (a : Bytes) (r : List Bytes) (h : r ≠ []) :
    (Spec.pathOf (a :: r)).length = a.length + 1 + (Spec.pathOf r).length := by
  cases r with
  | nil => exact absurd rfl h
  | cons b r =>
    rw [pathOf_cons_cons]
    simp only [List.length_append, List.length_cons]; omega

/-- Leaving out components makes a name shorter. -/
theorem pathOf_filter (p : Bytes → Bool) (cs : List Bytes) (h : cs.filter p ≠ []) :
    (Spec.pathOf (cs.filter p)).length ≤ (Spec.pathOf cs).length ∧
      ((Spec.pathOf (cs.filter p)).length = (Spec.pathOf cs).length → cs.filter p = cs) := by
  induction cs with
  | nil => exact absurd rfl h
  | cons a r ih =>
    by_cases ha : p a = true
    · rw [List.filter_cons_of_pos ha] at h ⊢
      by_cases hr : r.filter p = []
      · rw [hr, pathOf_single]
        cases r with
        | nil => rw [pathOf_single]; exact ⟨Nat.le_refl _, fun _ => rfl⟩
        | cons b r =>
          rw [pathOf_length_cons a (b :: r) (by simp)]
          exact ⟨by omega, fun e => by omega⟩
      · have hr' : r ≠ [] := by rintro rfl; exact hr rfl
        obtain ⟨i1, i2⟩ := ih hr
        rw [pathOf_length_cons a _ hr, pathOf_length_cons a r hr']
        exact ⟨by omega, fun e => by rw [i2 (by omega)]⟩
    · rw [List.filter_cons_of_neg ha] at h ⊢
      have hr' : r ≠ [] := by rintro rfl; exact h rfl
      obtain ⟨i1, i2⟩ := ih h
      rw [pathOf_length_cons a r hr']
      exact ⟨by omega, fun e => by omega⟩

/-- **C93**: without an allocator a requested name is normalised as with one, unless it is as long as a name can be and nothing
would have to be removed from it; then its last character is removed. -/
theorem c93_normalize (cap : Nat) (name : Bytes) (h : name.length ≤ cap) :
    normalizeNameIn cap name =
      if name.length = cap ∧ normalizeName name = some name then
        (if popChar name = [] then none else some (popChar name))
      else normalizeName name := by
  have hp := pathOf_splitSlash name
  have hc : Spec.Components (splitSlash name) := ⟨splitSlash_ne_nil name, splitSlash_no_slash name⟩
  have hn := c19_normalize (splitSlash name) hc
  rw [hp] at hn
  have hd := filter_dropSlash name
  unfold normalizeNameIn
  simp only [hd]
  by_cases h0 : (splitSlash name).filter usable = []
  · rw [if_pos h0] at hn
    have e : ¬ (name.length = cap ∧ normalizeName name = some name) := by rw [hn]; exact fun h => nomatch h.2
    rw [if_neg e, hn, h0]
    rfl
  · rw [if_neg h0] at hn
    obtain ⟨f1, f2⟩ := pathOf_filter usable (splitSlash name) h0
    rw [hp] at f1 f2
    have hne := pathOf_ne_nil h0 fun c hc => (List.mem_filter.mp hc).2
    have hl : (((splitSlash name).filter usable).foldl (fun f c => f ++ c ++ [47]) []).length =
        (Spec.pathOf ((splitSlash name).filter usable)).length + 1 := by
      rw [pathOf_fold _ h0]; simp
    by_cases hf : (Spec.pathOf ((splitSlash name).filter usable)).length = cap
    · have hfe := f2 (by omega)
      have e : Spec.pathOf ((splitSlash name).filter usable) = name := by rw [hfe, hp]
      rw [e] at hn hf
      rw [if_pos (show name.length = cap ∧ normalizeName name = some name from ⟨hf, hn⟩), foldl_in_cut cap _ _ h0 (by rw [hl, e]; omega),
        List.nil_append, e]
    · rw [foldl_in cap _ _ (by omega), pathOf_fold _ h0, popChar_one _ 47 (by decide), if_neg hne, hn, if_neg]
      rintro ⟨h1, h2⟩
      injection h2 with h2
      rw [h2] at hf
      exact hf h1

/-- **C93**: for names of less than 150 bytes nothing changes. -/
theorem c93_short (name : Bytes) (h : name.length < filePathCap) : normalizeNameIn filePathCap name = normalizeName name := by
  rw [c93_normalize _ _ (by omega), if_neg (by omega)]

theorem utf8_length (c : Nat) : (utf8 c).length ≤ 4 ∧ 0 < (utf8 c).length := by
  unfold utf8
  rw [List.length_map]
  split
  · simp
  · split
    · simp
    · split <;> simp

/-- **C93**, finding: of a name of exactly 150 bytes which needs no normalisation the last character is lost: the file opened is
another one than the file named. -/
theorem c93_cut (front : Bytes) (c : Nat) (h : Scalar c) (hl : (front ++ utf8 c).length = filePathCap)
    (hn : normalizeName (front ++ utf8 c) = some (front ++ utf8 c)) :
    normalizeNameIn filePathCap (front ++ utf8 c) = some front := by
  have h4 := (utf8_length c).1
  have hf : front ≠ [] := by
    rintro rfl
    simp only [List.nil_append, filePathCap] at hl
    omega
  rw [c93_normalize _ _ (by omega), if_pos ⟨hl, hn⟩, popChar_utf8 _ _ h, if_neg hf]

/-- A name which is normal already is a normal name: relative, without empty, `.` and `..` components. -/
theorem normal_components {name : Bytes} (hn : normalizeName name = some name) :
    ∀ c ∈ splitSlash name, usable c = true := by
  have hp := pathOf_splitSlash name
  have h := c19_normalize (splitSlash name) ⟨splitSlash_ne_nil name, splitSlash_no_slash name⟩
  rw [hp, hn] at h
  split at h
  · cases h
  · rename_i h0
    injection h with h
    have := (pathOf_filter usable (splitSlash name) h0).2 (by rw [hp, ← h])
    exact List.filter_eq_self.mp this

/-- Appending to a text without slash changes the last component only. -/
theorem splitSlash_snoc (f s : Bytes) (hs : (47 : UInt8) ∉ s) :
    ∃ init l, splitSlash f = init ++ [l] ∧ splitSlash (f ++ s) = init ++ [l ++ s] := by
  induction f with
  | nil =>
    refine ⟨[], [], rfl, ?_⟩
    have := splitSlash_pathOf [s] ⟨by simp, by simpa using hs⟩
    rw [pathOf_single] at this
    simpa using this
  | cons x f ih =>
    obtain ⟨init, l, h1, h2⟩ := ih
    by_cases hx : x = 47
    · refine ⟨[] :: init, l, ?_, ?_⟩
      · unfold splitSlash; rw [if_pos hx, h1]; rfl
      · rw [List.cons_append]; unfold splitSlash; rw [if_pos hx, h2]; rfl
    · cases init with
      | nil =>
        refine ⟨[], x :: l, ?_, ?_⟩
        · unfold splitSlash; rw [if_neg hx, h1]; rfl
        · rw [List.cons_append]; unfold splitSlash; rw [if_neg hx, h2]; rfl
      | cons a init =>
        refine ⟨(x :: a) :: init, l, ?_, ?_⟩
        · unfold splitSlash; rw [if_neg hx, h1]; rfl
        · rw [List.cons_append]; unfold splitSlash; rw [if_neg hx, h2]; rfl

/-- Specification: components below a directory, possibly with a step back up at the end. -/
def Spec.BelowOrBack (cs : List Bytes) : Prop :=
  cs ≠ [] ∧ (Spec.PlainNames cs ∨ ∃ r, r ≠ [] ∧ Spec.PlainNames r ∧ cs = r ++ [[46, 46]])

/-- **C93**: the path handed to the file system is relative. All of its components are plain, except that the last one may have
become `..` by the removal of a character. -/
theorem c93_components (n name : Bytes) (hv : utf8Valid n = true) (hl : n.length ≤ filePathCap)
    (h : normalizeNameIn filePathCap n = some name) :
    (PPath.parse name).abs = false ∧ Spec.BelowOrBack (PPath.parse name).comps := by
  rw [c93_normalize _ _ hl] at h
  split at h
  · rename_i hc
    obtain ⟨hlen, hn⟩ := hc
    obtain ⟨cs, hs, e⟩ := (c03_utf8 n).mp hv
    rcases List.eq_nil_or_concat cs with rfl | ⟨cs', c, rfl⟩
    · rw [e] at hlen; simp [filePathCap] at hlen
    · have hsc : Scalar c := hs c (by simp)
      have e' : n = cs'.flatMap utf8 ++ utf8 c := by rw [e]; simp
      generalize cs'.flatMap utf8 = front at e'
      have h4 := utf8_length c
      have hfl : 146 ≤ front.length := by
        rw [e', List.length_append] at hlen
        simp only [filePathCap] at hlen
        omega
      rw [e', popChar_utf8 _ _ hsc] at h
      split at h
      · cases h
      · injection h with h
        subst h
        have hcomp := normal_components hn
        -- the last character is not a slash
        have hns : (47 : UInt8) ∉ utf8 c := by
          intro hm
          have hc47 : c = 47 := by
            unfold Scalar at hsc
            unfold utf8 at hm
            have ht : ∀ k, k < 256 → (47 : UInt8) = UInt8.ofNat k → k = 47 := by
              intro k hk he
              have := congrArg UInt8.toNat he
              rw [toNat_of hk] at this
              exact this.symm
            split at hm
            · simp only [List.map_cons, List.map_nil, List.mem_singleton] at hm
              exact ht c (by omega) hm
            · split at hm
              · simp only [List.map_cons, List.map_nil, List.mem_cons, List.not_mem_nil, or_false] at hm
                rcases hm with hm | hm <;> (have := ht _ (by omega) hm; omega)
              · split at hm
                · simp only [List.map_cons, List.map_nil, List.mem_cons, List.not_mem_nil, or_false] at hm
                  rcases hm with hm | hm | hm <;> (have := ht _ (by omega) hm; omega)
                · simp only [List.map_cons, List.map_nil, List.mem_cons, List.not_mem_nil, or_false] at hm
                  rcases hm with hm | hm | hm | hm <;> (have := ht _ (by omega) hm; omega)
          subst hc47
          have hsp : splitSlash (front ++ [47]) = splitSlash front ++ [[]] := by
            have := splitSlash_pathOf (splitSlash front ++ [[]]) ⟨by simp, by
              intro x hx
              rcases List.mem_append.mp hx with hx | hx
              · exact splitSlash_no_slash front x hx
              · rw [List.mem_singleton.mp hx]; simp⟩
            rw [← this]
            congr 1
            have hp : ∀ l : List Bytes, l ≠ [] → Spec.pathOf (l ++ [[]]) = Spec.pathOf l ++ [47] := by
              intro l hl
              induction l with
              | nil => exact absurd rfl hl
              | cons a r ih =>
                cases r with
                | nil => rw [pathOf_single, List.singleton_append, pathOf_cons_cons, pathOf_single]
                | cons b r =>
                  rw [List.cons_append, List.cons_append, pathOf_cons_cons, ← List.cons_append, ih (by simp), pathOf_cons_cons]
                  simp
            rw [hp _ (splitSlash_ne_nil front), pathOf_splitSlash]
          rw [e'] at hcomp
          have h47 : utf8 47 = [47] := by decide
          rw [h47, hsp] at hcomp
          have := hcomp [] (by simp)
          rw [usable_nil] at this
          cases this
        obtain ⟨init, l, h1, h2⟩ := splitSlash_snoc front (utf8 c) hns
        rw [← e'] at h2
        rw [h2] at hcomp
        have hi : ∀ x ∈ init, x ≠ [] ∧ x ≠ [46] ∧ x ≠ [46, 46] := fun x hx => usable_spec (hcomp x (by simp [hx]))
        have hshort : init = [] → 146 ≤ l.length := by
          rintro rfl
          have := pathOf_splitSlash front
          rw [h1, List.nil_append, pathOf_single] at this
          rw [this]; exact hfl
        have hhead : (splitSlash front).head? ≠ some [46] := by
          rw [h1]
          cases init with
          | nil =>
            intro hh
            simp only [List.nil_append, List.head?_cons, Option.some.injEq] at hh
            have := hshort rfl
            rw [hh] at this
            simp at this
          | cons a r =>
            intro hh
            simp only [List.cons_append, List.head?_cons, Option.some.injEq] at hh
            exact (hi a (by simp)).2.1 hh
        have hfi : init.filter (fun c => decide (c ≠ [] ∧ c ≠ [46])) = init :=
          List.filter_eq_self.mpr fun x hx => by simpa using ⟨(hi x hx).1, (hi x hx).2.1⟩
        have hpl : Spec.PlainNames init := fun x hx => ⟨(hi x hx).2.1, (hi x hx).2.2⟩
        have hparse : (PPath.parse front).comps = init ++ if l ≠ [] ∧ l ≠ [46] then [l] else [] := by
          unfold PPath.parse
          simp only [if_neg hhead]
          rw [h1, List.filter_append, hfi]
          congr 1
          by_cases hq : l ≠ [] ∧ l ≠ [46]
          · rw [if_pos hq, List.filter_cons_of_pos (by simpa using hq)]; rfl
          · rw [if_neg hq, List.filter_cons_of_neg (by simpa using hq)]; rfl
        refine ⟨?_, ?_⟩
        · -- not absolute
          unfold PPath.parse
          simp only [decide_eq_false_iff_not]
          intro hh
          obtain ⟨-, -, -, -, hab, -, -⟩ := c19_safe n n hn
          apply hab
          rw [e', List.head?_append, hh]
          rfl
        · rw [hparse]
          by_cases hq : l ≠ [] ∧ l ≠ [46]
          · rw [if_pos hq]
            refine ⟨by simp, ?_⟩
            by_cases hdd : l = [46, 46]
            · refine .inr ⟨init, ?_, hpl, by rw [hdd]⟩
              intro hi0
              have := hshort hi0
              rw [hdd] at this
              simp at this
            · refine .inl fun x hx => ?_
              rcases List.mem_append.mp hx with hx | hx
              · exact hpl x hx
              · rw [List.mem_singleton.mp hx]; exact ⟨hq.2, hdd⟩
          · rw [if_neg hq, List.append_nil]
            refine ⟨?_, .inl hpl⟩
            intro hi0
            have := hshort hi0
            apply hq
            constructor
            · rintro rfl; simp at this
            · rintro rfl; simp at this
  · obtain ⟨a, b, c⟩ := normalized_parse n name h
    exact ⟨a, b, .inl c⟩

/-! ### Uploads stay in the server directory -/

/-- A path ending in `..` leads to a directory. -/
theorem walk_up {fs : Fs} (h : fs.WF) {create : Bool} {k}
    (hk : ∀ cur comps p, fs cur = some .dir → k cur (comps ++ [[46, 46]]) = some p → fs p = some .dir) (comps : List Bytes) :
    ∀ cur p, fs cur = some .dir → walk fs create k cur (comps ++ [[46, 46]]) = some p → fs p = some .dir := by
  induction comps with
  | nil =>
    intro cur p hc hw
    have : walk fs create k cur [[46, 46]] = some cur.dropLast := rfl
    rw [List.nil_append, this] at hw
    injection hw with hw
    rw [← hw]
    exact h.dropLast hc
  | cons c r ih =>
    intro cur p hc hw
    rw [List.cons_append] at hw
    unfold walk at hw
    split at hw
    · exact ih _ _ hc hw
    · split at hw
      · exact ih _ _ (h.dropLast hc) hw
      · split at hw
        · simp at hw
        · rename_i hd
          exact ih _ _ hd hw
        · simp at hw
        · rename_i a t _
          refine hk (if a then [] else cur) (t ++ r) p ?_ (by rw [List.append_assoc]; exact hw)
          split
          · exact h.root
          · exact hc

theorem resolve_up {fs : Fs} (h : fs.WF) {create : Bool} (n : Nat) :
    ∀ (comps cur p : List Bytes), fs cur = some .dir → resolve fs create n cur (comps ++ [[46, 46]]) = some p → fs p = some .dir := by
  induction n with
  | zero => exact fun comps cur p hc hr => walk_up h (fun _ _ _ _ e => by cases e) comps cur p hc hr
  | succ n ih => exact fun comps cur p hc hr => walk_up h (fun cur comps p hc e => ih comps cur p hc e) comps cur p hc hr

/-- A name which ends by going back up: directories may be created inside the server directory, nothing is opened. -/
theorem writer_back (fs fs' : Fs) (cwd : List Bytes) (cfg : DirCfg) (name : Bytes) (r : Option (List Bytes))
    (d : List Bytes) (h : fs.WF) (hcwd : fs cwd = some .dir) (hdir : canonicalize fs cwd (PPath.parse cfg.directory) = some d)
    (hd : fs d = some .dir) (hl : Spec.NoLinksBelow fs d) (habs : (PPath.parse name).abs = false)
    {rc : List Bytes} (hne : rc ≠ []) (hname : Spec.PlainNames rc) (hcomps : (PPath.parse name).comps = rc ++ [[46, 46]])
    (hh : serverWriter fs cwd cfg name = (fs', r)) :
    r = none ∧ ∀ q, ¬ d <+: q → fs' q = fs q := by
  have hjoin : (PPath.parse cfg.directory).join (PPath.parse name) =
      ⟨(PPath.parse cfg.directory).abs, (PPath.parse cfg.directory).comps ++ rc ++ [[46, 46]]⟩ := by
    unfold PPath.join; rw [habs, hcomps, List.append_assoc]; rfl
  unfold serverWriter at hh
  simp only [hjoin] at hh
  generalize hstart : (if (PPath.parse cfg.directory).abs then [] else cwd) = start at hh
  have hsd : fs start = some .dir := by
    rw [← hstart]; split
    · exact h.root
    · exact hcwd
  unfold canonicalize at hdir
  rw [hstart] at hdir
  generalize hdc : (PPath.parse cfg.directory).comps = dc at hh hdir
  have c0 : Contained fs d start dc fs := ⟨h, .refl _, hl, fun _ _ => rfl, hdir, hd⟩
  split at hh
  · split at hh
    · have hpar : ∀ g b, (match (PPath.mk (PPath.parse cfg.directory).abs (dc ++ rc ++ [[46, 46]])).parent with
          | none => (fs, true)
          | some q => if isDir fs cwd q then (fs, true) else createDirAll fs start q.comps q.comps.length) = (g, b) →
          Contained fs d start dc g := by
        intro g b hg
        unfold PPath.parent at hg
        simp only [List.append_eq_nil_iff, List.cons_ne_self, and_false, if_false, List.dropLast_concat] at hg
        split at hg
        · cases hg; exact c0
        · rw [List.length_append] at hg
          have hz := List.length_pos_iff.mpr hne
          obtain ⟨n, hn⟩ : ∃ n, rc.length = n + 1 := ⟨rc.length - 1, by omega⟩
          rw [hn] at hg
          exact c0.createDirAll hname (by omega) hg
      split at hh
      · rename_i g hg
        cases hh
        exact ⟨rfl, (hpar _ _ hg).outside⟩
      · rename_i g hg
        have cg := hpar _ _ hg
        have hs : g start = some .dir := cg.unchanged _ _ hsd
        have hopen : (if cfg.overwrite then openCreate g start (dc ++ rc ++ [[46, 46]]) else openNew g start (dc ++ rc ++ [[46, 46]])) =
            (g, none) := by
          split
          · unfold openCreate
            split
            · rfl
            · rename_i p hp
              have := resolve_up cg.wf _ _ _ _ hs hp
              rw [this]
          · unfold openNew
            rw [List.getLast?_concat]
            simp only [List.dropLast_concat]
            split
            · rfl
            · rw [if_neg (by simp)]
        rw [hopen] at hh
        cases hh
        exact ⟨rfl, cg.outside⟩
    · cases hh; exact ⟨rfl, fun _ _ => rfl⟩
  · cases hh; exact ⟨rfl, fun _ _ => rfl⟩

/-- **C93**: still, if there is no symbolic link inside the server directory, then whatever name is requested and whatever the
outcome, an upload changes and creates nothing outside of it. -/
theorem c93_writer_contained (fs fs' : Fs) (cwd : List Bytes) (cfg : DirCfg) (n name : Bytes) (r : Option (List Bytes))
    (d : List Bytes) (h : fs.WF) (hcwd : fs cwd = some .dir)
    (hdir : canonicalize fs cwd (PPath.parse cfg.directory) = some d) (hd : fs d = some .dir)
    (hl : Spec.NoLinksBelow fs d) (hv : utf8Valid n = true) (hlen : n.length ≤ filePathCap)
    (hn : normalizeNameIn filePathCap n = some name) (hh : serverWriter fs cwd cfg name = (fs', r)) :
    ∀ q, ¬ d <+: q → fs' q = fs q := by
  obtain ⟨ha, hne, hp | ⟨rc, h0, hp, he⟩⟩ := c93_components n name hv hlen hn
  · exact c20_writer_contained_names fs fs' cwd cfg name r d h hcwd hdir hd hl ha hne hp hh
  · exact (writer_back fs fs' cwd cfg name r d h hcwd hdir hd hl ha h0 hp he hh).2

/-! ### Downloads -/

/-- **C93**: a download opens the file it opens with an allocator if the file's full path has at most 150 bytes, otherwise it is
refused; directory listings are not limited. -/
theorem c93_reader (cap : Nat) (fs : Fs) (cwd : List Bytes) (cfg : DirCfg) (name : Bytes) (h : fs.WF) (hcwd : fs cwd = some .dir) :
    serverReaderIn cap fs cwd cfg name =
      match serverReader fs cwd cfg name with
      | some (.file p) => if (47 :: Spec.pathOf p).length ≤ cap then some (.file p) else none
      | other => other := by
  have hfile : ∀ (d : List Bytes) (real : Option (List Bytes)), real = canonicalize fs cwd ((PPath.parse cfg.directory).join (PPath.parse name)) →
      (match some d, real with
        | some d, some p =>
          if d.isPrefixOf p then
            if (47 :: Spec.pathOf p).length ≤ cap then (canonicalize fs cwd ⟨true, p⟩).map RHandle.file else none
          else none
        | _, _ => none) =
      match (match some d, real with
        | some d, some p => if d.isPrefixOf p then (canonicalize fs cwd ⟨true, p⟩).map RHandle.file else none
        | _, _ => none) with
      | some (.file p) => if (47 :: Spec.pathOf p).length ≤ cap then some (.file p) else none
      | other => other := by
    intro d real hp
    cases real with
    | none => rfl
    | some p =>
      have hr : Spec.Real fs p := by
        have hp := hp.symm
        unfold canonicalize at hp
        rcases resolve_real h _ _ _ _ (by split <;> first | exact h.root | exact hcwd) hp with hr | hr
        · exact hr
        · cases hr.1
      simp only [canonicalize_real h cwd p hr, Option.map_some]
      by_cases hpre : d.isPrefixOf p = true
      · simp only [hpre, ↓reduceIte]
      · simp only [hpre, Bool.false_eq_true, ↓reduceIte]
  have hlist : ∀ (d : List Bytes) (real : Option (List Bytes)),
      (match some d, real with
        | some d, some p => if d.isPrefixOf p then if fs p = some Node.dir then some (RHandle.listing p) else none else none
        | _, _ => none) =
      match (match some d, real with
        | some d, some p => if d.isPrefixOf p then if fs p = some Node.dir then some (RHandle.listing p) else none else none
        | _, _ => none) with
      | some (.file p) => if (47 :: Spec.pathOf p).length ≤ cap then some (.file p) else none
      | other => other := by
    intro d real
    cases real with
    | none => rfl
    | some p =>
      simp only
      split
      · split <;> rfl
      · rfl
  unfold serverReaderIn serverReader
  simp only
  split
  · cases hd : canonicalize fs cwd (PPath.parse cfg.directory) with
    | none => rfl
    | some d =>
      cases hdl : cfg.directoryList with
      | none =>
        simp only [Bool.false_eq_true, ↓reduceIte]
        exact hfile d _ rfl
      | some l =>
        by_cases he : ((PPath.parse cfg.directory).join (PPath.parse name)).endsWith (PPath.parse l) = true
        · simp only [he, ↓reduceIte]
          exact hlist d _
        · simp only [he, Bool.false_eq_true, ↓reduceIte]
          exact hfile d _ rfl
  · rfl

/-- **C93**: a name of less than 150 bytes opens the file it opens with an allocator, provided that file's full path has at most
150 bytes. -/
theorem c93_same_file (fs : Fs) (cwd : List Bytes) (cfg : DirCfg) (n : Bytes) (h : fs.WF) (hcwd : fs cwd = some .dir)
    (hn : n.length < filePathCap)
    (hp : ∀ name p, normalizeName n = some name → serverReader fs cwd cfg name = some (.file p) → (47 :: Spec.pathOf p).length ≤ filePathCap) :
    ((normalizeNameIn filePathCap n).bind fun name => serverReaderIn filePathCap fs cwd cfg name) =
      (normalizeName n).bind fun name => serverReader fs cwd cfg name := by
  rw [c93_short n hn]
  cases hm : normalizeName n with
  | none => rfl
  | some name =>
    simp only [Option.bind_some]
    rw [c93_reader _ _ _ _ _ h hcwd]
    cases hr : serverReader fs cwd cfg name with
    | none => rfl
    | some x =>
      cases x with
      | listing p => rfl
      | file p => simp only [if_pos (hp name p hm hr)]

/-! ### Examples -/

/-- 149 times `a`. -/
def Toy.longName : Bytes := List.replicate 149 97

/-- `/s` with the file `aa…a` (149) and the file `aa…ab` (150). -/
def Toy.longFs : Fs := fsOf [([], .dir), ([[115]], .dir), ([[115], Toy.longName], .file [1]), ([[115], Toy.longName ++ [98]], .file [2])]

theorem Toy.longFs_wf : Toy.longFs.WF := fsOf_wf _ (by decide +kernel) (by decide +kernel)

theorem Toy.longName_normal : normalizeName (Toy.longName ++ [98]) = some (Toy.longName ++ [98]) := by decide +kernel

/-- The hypotheses of `c93_cut` are met by the second file's name. -/
theorem Toy.longName_cut : normalizeNameIn filePathCap (Toy.longName ++ [98]) = some Toy.longName :=
  c93_cut Toy.longName 98 (by unfold Scalar; omega) (by decide +kernel) (by exact Toy.longName_normal)

/-- The hypotheses of `c93_same_file` and `c93_writer_contained` are met. -/
example : ([97] : Bytes).length < filePathCap ∧ normalizeName [97] = some [97] ∧
    serverReader demoFs [] ⟨[47, 115], none, 5, false⟩ [97] = some (.file [[115], [97]]) ∧
    (47 :: Spec.pathOf [[115], [97]]).length ≤ filePathCap ∧
    utf8Valid (Toy.longName ++ [98]) = true ∧ (Toy.longName ++ [98]).length ≤ filePathCap ∧
    canonicalize Toy.longFs [] (PPath.parse [47, 115]) = some [[115]] ∧ Toy.longFs [[115]] = some .dir := by
  refine ⟨?_, ?_, ?_, ?_, ?_, ?_, ?_, ?_⟩ <;> decide +kernel

/-- **C93**, finding: with an allocator the file of the name with 150 bytes is read; without one the file of another name is read
instead of it, and an upload of the one empties the other. -/
theorem c93_wrong_file :
    let cfg : DirCfg := ⟨[47, 115], none, 5, true⟩
    (∃ name, normalizeName (Toy.longName ++ [98]) = some name ∧
      serverReader Toy.longFs [] cfg name = some (.file [[115], Toy.longName ++ [98]])) ∧
    ∃ name, normalizeNameIn filePathCap (Toy.longName ++ [98]) = some name ∧
      serverReader Toy.longFs [] cfg name = some (.file [[115], Toy.longName]) ∧
      (serverWriter Toy.longFs [] cfg name).2 = some [[115], Toy.longName] ∧
      (serverWriter Toy.longFs [] cfg name).1 [[115], Toy.longName] = some (.file []) ∧
      (serverWriter Toy.longFs [] cfg name).1 [[115], Toy.longName ++ [98]] = some (.file [2]) := by
  intro cfg
  refine ⟨⟨_, Toy.longName_normal, ?_⟩, _, Toy.longName_cut, ?_, ?_, ?_, ?_⟩ <;> decide +kernel

/-- **C93**, finding: an upload to a name of 149 bytes is stored, and cannot be downloaded: the full path has 152 bytes. -/
theorem c93_unreadable :
    let cfg : DirCfg := ⟨[47, 115], none, 5, false⟩
    let fs := fsOf [([], .dir), ([[115]], .dir)]
    normalizeNameIn filePathCap Toy.longName = some Toy.longName ∧
    (serverWriter fs [] cfg Toy.longName).2 = some [[115], Toy.longName] ∧
    serverReaderIn filePathCap (serverWriter fs [] cfg Toy.longName).1 [] cfg Toy.longName = none ∧
    serverReader (serverWriter fs [] cfg Toy.longName).1 [] cfg Toy.longName = some (.file [[115], Toy.longName]) := by
  intro cfg fs
  refine ⟨?_, ?_, ?_, ?_⟩
  · rw [c93_short _ (by decide +kernel)]; decide +kernel
  all_goals decide +kernel

/-- A name which ends in `..` after the removal: `aa…a/..b` becomes `aa…a/..`. -/
theorem c93_back :
    normalizeNameIn filePathCap (List.replicate 146 97 ++ [47, 46, 46, 98]) = some (List.replicate 146 97 ++ [47, 46, 46]) ∧
    (PPath.parse (List.replicate 146 97 ++ [47, 46, 46])).comps = [List.replicate 146 97, [46, 46]] := by
  refine ⟨?_, by decide +kernel⟩
  have h := c93_cut (List.replicate 146 97 ++ [47, 46, 46]) 98 (by unfold Scalar; omega) (by decide +kernel) (by decide +kernel)
  have e : List.replicate 146 97 ++ [47, 46, 46] ++ utf8 98 = List.replicate 146 (97 : UInt8) ++ [47, 46, 46, 98] := by
    rw [show utf8 98 = [98] from by decide, List.append_assoc]; rfl
  exact (congrArg (normalizeNameIn filePathCap) e).symm.trans h

end Tftp

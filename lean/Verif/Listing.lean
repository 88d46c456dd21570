import Verif.Disk
/-
C58, C59: directory listings (std-binary/src/io.rs:199-218) and which names lead to which files.
-/
namespace Tftp

/-- Specification: the lines of a text. -/
structure Spec.Lines (text : Bytes) (ls : List Bytes) : Prop where
  text : text = (ls.map (· ++ [10])).flatten
  line : ∀ l ∈ ls, (10 : UInt8) ∉ l

/-- Specification: names as the operating system has them. -/
def Spec.OsNames (fs : Fs) : Prop := ∀ p c, fs (p ++ [c]) ≠ none → c ≠ [] ∧ (47 : UInt8) ∉ c

/-- Specification: `names` are the entries of the directory `p`, in some order. -/
structure Spec.Entries (fs : Fs) (p names : List Bytes) : Prop where
  once : names.Nodup
  all : ∀ c, c ∈ names ↔ fs (p ++ [c]) ≠ none

/-- std `Path::strip_prefix`, for absolute paths. -/
def stripPrefix (d p : List Bytes) : Option (List Bytes) := if d.isPrefixOf p then some (p.drop d.length) else none

/-- std-binary/src/io.rs:204-214: the line for one entry. `lossy`: std `Path::to_string_lossy`. `DirEntry::file_type` does not
follow links. -/
def listLine (lossy : Bytes → Bytes) (fs : Fs) (d p : List Bytes) (c : Bytes) : Option Bytes :=
  (stripPrefix d (p ++ [c])).map fun name => lossy (Spec.pathOf name) ++ (if fs (p ++ [c]) = some .dir then [47] else []) ++ [10]

/-- std-binary/src/io.rs:199-218 `list_directory`; `names`: what `read_dir` gives, in an order of its own. Errors of
`read_dir` are left out. -/
def listDirectory (lossy : Bytes → Bytes) (fs : Fs) (d p : List Bytes) : List Bytes → Option Bytes
  | [] => some []
  | c :: r => do return (← listLine lossy fs d p c) ++ (← listDirectory lossy fs d p r)

/-- Specification: what a user sees for the entry `c` of the directory `p`: the path relative to the server directory `d`, with a slash for a
directory. -/
def Spec.shown (fs : Fs) (d p : List Bytes) (c : Bytes) : Bytes :=
  Spec.pathOf (p.drop d.length ++ [c]) ++ (if fs (p ++ [c]) = some .dir then [47] else [])

/-! ### Proofs -/

open Spec

theorem lines_cons {text : Bytes} {l : Bytes} {ls : List Bytes} (h : Lines text (l :: ls)) :
    ∃ r, text = l ++ 10 :: r ∧ Lines r ls :=
  ⟨(ls.map (· ++ [10])).flatten, by rw [h.text]; simp, rfl, fun l hl => h.line l (by simp [hl])⟩

theorem split_unique {a b r s : Bytes} (ha : (10 : UInt8) ∉ a) (hb : (10 : UInt8) ∉ b) (h : a ++ 10 :: r = b ++ 10 :: s) : a = b ∧ r = s := by
  induction a generalizing b with
  | nil =>
    cases b with
    | nil => simpa using h
    | cons y b =>
      simp only [List.nil_append, List.cons_append, List.cons.injEq] at h
      simp [← h.1] at hb
  | cons x a ih =>
    cases b with
    | nil => simp at h ha; simp [h.1] at ha
    | cons y b =>
      simp only [List.cons_append, List.cons.injEq] at h
      simp only [List.mem_cons, not_or] at ha hb
      obtain ⟨h1, h2⟩ := ih ha.2 hb.2 h.2
      exact ⟨by rw [h.1, h1], h2⟩

/-- There is only one way to see a text as lines. -/
theorem lines_unique {text : Bytes} {a b : List Bytes} (ha : Lines text a) (hb : Lines text b) : a = b := by
  induction a generalizing text b with
  | nil =>
    cases b with
    | nil => rfl
    | cons l ls =>
      obtain ⟨r, h, -⟩ := lines_cons hb
      have := ha.text
      rw [h] at this
      simp at this
  | cons x a ih =>
    obtain ⟨r, h, h'⟩ := lines_cons ha
    cases b with
    | nil =>
      have := hb.text
      rw [h] at this
      simp at this
    | cons y b =>
      obtain ⟨s, k, k'⟩ := lines_cons hb
      obtain ⟨e1, e2⟩ := split_unique (ha.line x (by simp)) (hb.line y (by simp)) (h.symm.trans k)
      subst e1 e2
      rw [ih h' k']

theorem pathOf_append_one (cs : List Bytes) (c : Bytes) (h : cs ≠ []) : pathOf (cs ++ [c]) = pathOf cs ++ 47 :: c := by
  induction cs with
  | nil => exact absurd rfl h
  | cons a r ih =>
    cases r with
    | nil => simp [pathOf_cons_cons, pathOf_single]
    | cons b r =>
      have := ih (by simp)
      simp only [List.cons_append] at this ⊢
      rw [pathOf_cons_cons, this, pathOf_cons_cons]
      simp

theorem mem_pathOf {cs : List Bytes} {x : UInt8} (h : x ∈ pathOf cs) : x = 47 ∨ ∃ c ∈ cs, x ∈ c := by
  induction cs with
  | nil => simp [pathOf, List.intercalate] at h
  | cons a r ih =>
    cases r with
    | nil => rw [pathOf_single] at h; exact .inr ⟨a, by simp, h⟩
    | cons b r =>
      rw [pathOf_cons_cons] at h
      simp only [List.mem_append, List.mem_cons] at h
      rcases h with h | h | h
      · exact .inr ⟨a, by simp, h⟩
      · exact .inl h
      · rcases ih h with h | ⟨c, hc, hx⟩
        · exact .inl h
        · exact .inr ⟨c, List.mem_cons_of_mem _ hc, hx⟩

/-- All names on the way to an existing location. -/
theorem names_on_way {fs : Fs} (h : fs.WF) (hos : OsNames fs) {p : List Bytes} (hp : fs p ≠ none) :
    ∀ c ∈ p, c ≠ [] ∧ (47 : UInt8) ∉ c ∧ c ≠ [46] ∧ c ≠ [46, 46] := by
  intro c hc
  obtain ⟨a, b, rfl⟩ := List.append_of_mem hc
  have : fs (a ++ [c]) ≠ none := by
    cases b with
    | nil => exact hp
    | cons x b => rw [h.above (a ++ [c]) x b (by simpa using hp)]; simp
  exact ⟨(hos a c this).1, (hos a c this).2, h.names a c this⟩

theorem shown_inj {fs : Fs} {d p : List Bytes} {a b : Bytes} (ha : fs (p ++ [a]) ≠ none) (hb : fs (p ++ [b]) ≠ none) (hos : OsNames fs)
    (h : shown fs d p a = shown fs d p b) : a = b := by
  have key : ∀ (x y : Bytes), (47 : UInt8) ∉ x → x ≠ [] → (47 : UInt8) ∉ y → y ≠ [] → ∀ (u v : Bytes), (u = [] ∨ u = [47]) → (v = [] ∨ v = [47]) →
      x ++ u = y ++ v → x = y := by
    intro x y hx _ hy _ u v hu hv e
    rcases hu with rfl | rfl <;> rcases hv with rfl | rfl
    · simpa using e
    · exfalso; apply hx; simp only [List.append_nil] at e; rw [e]; simp
    · exfalso; apply hy; simp only [List.append_nil] at e; rw [← e]; simp
    · exact List.append_cancel_right e
  have pick : ∀ c, (if fs (p ++ [c]) = some .dir then [(47 : UInt8)] else []) = [] ∨ (if fs (p ++ [c]) = some .dir then [(47 : UInt8)] else []) = [47] := by
    intro c; split
    · exact .inr rfl
    · exact .inl rfl
  have na := hos p a ha
  have nb := hos p b hb
  unfold shown at h
  by_cases hd : p.drop d.length = []
  · rw [hd] at h
    simp only [List.nil_append, pathOf_single] at h
    exact key a b na.2 na.1 nb.2 nb.1 _ _ (pick a) (pick b) h
  · rw [pathOf_append_one _ _ hd, pathOf_append_one _ _ hd] at h
    simp only [List.append_assoc, List.cons_append] at h
    have h := List.append_cancel_left h
    simp only [List.cons.injEq, true_and] at h
    exact key a b na.2 na.1 nb.2 nb.1 _ _ (pick a) (pick b) h

theorem prefix_append {d p : List Bytes} (h : d <+: p) (c : Bytes) : d.isPrefixOf (p ++ [c]) = true ∧ (p ++ [c]).drop d.length = p.drop d.length ++ [c] := by
  refine ⟨List.isPrefixOf_iff_prefix.mpr (h.trans (List.prefix_append _ _)), ?_⟩
  rw [List.drop_append_of_le_length h.length_le]

/-- **C58**: the listing of a directory inside the server directory is the list of its entries, one per line: the path relative to the server
directory, with a slash at the end exactly for directories. Different entries have different lines. Condition: names
are UTF-8 without line break. -/
theorem c58_listing_partial (lossy : Bytes → Bytes) (hlossy : ∀ b, utf8Valid b = true → lossy b = b) (fs : Fs) (hos : OsNames fs)
    (d p names : List Bytes) (hdp : d <+: p) (hn : Entries fs p names)
    (hutf : ∀ c, c ∈ p ∨ c ∈ names → utf8Valid c = true) (hnl : ∀ c, c ∈ p ∨ c ∈ names → (10 : UInt8) ∉ c) :
    ∃ text, listDirectory lossy fs d p names = some text ∧
      Lines text (names.map (shown fs d p)) ∧ (names.map (shown fs d p)).Nodup ∧
      (∀ ls, Lines text ls → ls = names.map (shown fs d p)) ∧
      ∀ c ∈ names, ((shown fs d p c).getLast? = some 47 ↔ fs (p ++ [c]) = some .dir) := by
  have hu : ∀ cs : List Bytes, (∀ c ∈ cs, utf8Valid c = true) → utf8Valid (pathOf cs) = true := by
    intro cs hc
    induction cs with
    | nil => rfl
    | cons a r ih =>
      cases r with
      | nil => rw [pathOf_single]; exact hc a (by simp)
      | cons b r =>
        rw [pathOf_cons_cons, utf8Valid_append (hc a (by simp))]
        have : utf8Valid ([47] ++ pathOf (b :: r)) = true := by
          rw [utf8Valid_append (utf8Valid_ascii (by decide))]
          exact ih fun c hc' => hc c (by simp [hc'])
        exact this
  have hline : ∀ c ∈ names, listLine lossy fs d p c = some (shown fs d p c ++ [10]) := by
    intro c hc
    obtain ⟨h1, h2⟩ := prefix_append hdp c
    unfold listLine stripPrefix shown
    rw [if_pos h1, h2]
    simp only [Option.map_some]
    rw [hlossy]
    refine hu _ fun x hx => ?_
    rcases List.mem_append.mp hx with hx | hx
    · exact hutf x (.inl (List.mem_of_mem_drop hx))
    · simp only [List.mem_singleton] at hx; subst hx; exact hutf x (.inr hc)
  have hlist : ∀ cs : List Bytes, (∀ c ∈ cs, c ∈ names) → listDirectory lossy fs d p cs = some ((cs.map fun c => shown fs d p c ++ [10]).flatten) := by
    intro cs hc
    induction cs with
    | nil => rfl
    | cons c r ih =>
      unfold listDirectory
      rw [hline c (hc c (by simp)), ih fun x hx => hc x (by simp [hx])]
      simp
  have hlines : Lines ((names.map fun c => shown fs d p c ++ [10]).flatten) (names.map (shown fs d p)) := by
    refine ⟨by simp [Function.comp_def], ?_⟩
    intro l hl
    obtain ⟨c, hc, rfl⟩ := List.mem_map.mp hl
    intro h10
    unfold shown at h10
    rcases List.mem_append.mp h10 with h10 | h10
    · rcases mem_pathOf h10 with h | ⟨x, hx, h⟩
      · cases h
      · rcases List.mem_append.mp hx with hx | hx
        · exact hnl x (.inl (List.mem_of_mem_drop hx)) h
        · simp only [List.mem_singleton] at hx; subst hx; exact hnl x (.inr hc) h
    · split at h10 <;> simp at h10
  refine ⟨_, hlist names fun c hc => hc, hlines, ?_, fun ls hls => lines_unique hls hlines, ?_⟩
  · have : ∀ cs : List Bytes, (∀ c ∈ cs, c ∈ names) → cs.Nodup → (cs.map (shown fs d p)).Nodup := by
      intro cs hc hnd
      induction cs with
      | nil => simp
      | cons c r ih =>
        simp only [List.map_cons, List.nodup_cons] at hnd ⊢
        refine ⟨?_, ih (fun x hx => hc x (by simp [hx])) hnd.2⟩
        intro hm
        obtain ⟨x, hx, e⟩ := List.mem_map.mp hm
        have := shown_inj ((hn.all x).mp (hc x (by simp [hx]))) ((hn.all c).mp (hc c (by simp))) hos e
        subst this
        exact hnd.1 hx
    exact this names (fun c hc => hc) hn.once
  · intro c hc
    have hc' := hos p c ((hn.all c).mp hc)
    unfold shown
    by_cases hdir : fs (p ++ [c]) = some .dir
    · simp [hdir]
    · rw [if_neg hdir]
      simp only [List.append_nil, hdir, iff_false]
      have : ∀ x : Bytes, x ++ c ≠ [] ∧ (x ++ c).getLast? ≠ some 47 := by
        intro x
        refine ⟨by simp [hc'.1], ?_⟩
        intro e
        rw [List.getLast?_append, List.getLast?_eq_some_getLast hc'.1] at e
        simp only [Option.some_or] at e
        rw [← List.getLast?_eq_some_getLast hc'.1] at e
        exact hc'.2 (List.mem_of_getLast? e)
      by_cases hz : p.drop d.length = []
      · rw [hz]; simpa [pathOf_single] using (this []).2
      · rw [pathOf_append_one _ _ hz]
        have := (this (pathOf (p.drop d.length) ++ [47])).2
        simpa using this

/-- Specification: a name which is not lost when names are normalised (C19). -/
def Spec.Kept (c : Bytes) : Prop := trim c ≠ [] ∧ trim c ≠ [46] ∧ trim c ≠ [46, 46]

theorem kept_usable {c : Bytes} (h : Kept c) (hs : (47 : UInt8) ∉ c) : usable c = true := by
  have : trim c ≠ [47] := fun e => hs (trim_mem (by rw [e]; simp))
  simp [usable, h.1, h.2.1, h.2.2, this]

theorem normalize_kept {cs : List Bytes} (h0 : cs ≠ []) (hs : ∀ c ∈ cs, (47 : UInt8) ∉ c) (hk : ∀ c ∈ cs, Kept c) :
    normalizeName (pathOf cs) = some (pathOf cs) ∧ PPath.parse (pathOf cs) = ⟨false, cs⟩ := by
  have hc : Components cs := ⟨h0, hs⟩
  have hf : cs.filter usable = cs := List.filter_eq_self.mpr fun c hc => kept_usable (hk c hc) (hs c hc)
  have hn : normalizeName (pathOf cs) = some (pathOf cs) := by
    rw [c19_normalize cs hc, hf, if_neg h0]
  refine ⟨hn, ?_⟩
  have ha := (normalized_parse _ _ hn).1
  have hp : ∀ c ∈ cs, c ≠ [] ∧ c ≠ [46] := fun c hc => ⟨(usable_spec (kept_usable (hk c hc) (hs c hc))).1, (usable_spec (kept_usable (hk c hc) (hs c hc))).2.1⟩
  have hf' : cs.filter (fun c => decide (c ≠ [] ∧ c ≠ [46])) = cs :=
    List.filter_eq_self.mpr fun c hcc => by simpa using hp c hcc
  have hhd : cs.head? ≠ some [46] := fun e => (hp _ (List.mem_of_mem_head? e)).2 rfl
  have hcomps : (PPath.parse (pathOf cs)).comps = cs := by
    unfold PPath.parse
    simp only [splitSlash_pathOf cs hc, hf', if_neg hhd]
  cases hq : PPath.parse (pathOf cs) with
  | mk a b => rw [hq] at ha hcomps; simp only at ha hcomps; rw [ha, hcomps]

/-- Names below the server directory lead to what is there. -/
theorem canonicalize_below {fs : Fs} (h : fs.WF) {cwd d rest : List Bytes} {dir : PPath} (hd : canonicalize fs cwd dir = some d) (hdd : fs d = some .dir)
    (hr : Real fs (d ++ rest)) : canonicalize fs cwd (dir.join ⟨false, rest⟩) = some (d ++ rest) := by
  unfold canonicalize at hd ⊢
  obtain ⟨m, -, hm⟩ := resolve_append (create := false) hdd maxLinks _ _ hd
  have hj : dir.join ⟨false, rest⟩ = ⟨dir.abs, dir.comps ++ rest⟩ := rfl
  rw [hj]
  simp only
  rw [hm rest, resolve_eq]
  exact walk_down h d rest hr

theorem take_drop_prefix {d p : List Bytes} (h : d <+: p) : d ++ p.drop d.length = p := by
  obtain ⟨t, rfl⟩ := h
  simp

/-- **C58**: whoever requests a line of a listing gets the file: the name is not changed by the server's normalisation and the server opens
exactly the listed file. Conditions: the directory depth, no component of the name is lost (it is not blank, nor `.` or `..` with blanks), and
the file does not have the name of the listing. -/
theorem c58_listed_file_partial (fs : Fs) (cwd : List Bytes) (cfg : DirCfg) (h : fs.WF) (hos : OsNames fs) (d p : List Bytes) (c data : Bytes)
    (hd : canonicalize fs cwd (PPath.parse cfg.directory) = some d) (hdp : d <+: p) (hdd : fs d = some .dir)
    (hc : fs (p ++ [c]) = some (.file data)) (hkept : ∀ x ∈ p.drop d.length ++ [c], Kept x)
    (hdepth : (p.drop d.length).length ≤ cfg.maxDepth)
    (hlist : ∀ l, cfg.directoryList = some l → PPath.parse l = ⟨false, [l]⟩ ∧ l ≠ c) :
    normalizeName (shown fs d p c) = some (shown fs d p c) ∧ serverReader fs cwd cfg (shown fs d p c) = some (.file (p ++ [c])) := by
  have hsh : shown fs d p c = pathOf (p.drop d.length ++ [c]) := by simp [shown, hc]
  have hway := names_on_way h hos (p := p ++ [c]) (by rw [hc]; simp)
  have hs : ∀ x ∈ p.drop d.length ++ [c], (47 : UInt8) ∉ x := by
    intro x hx
    refine (hway x ?_).2.1
    rcases List.mem_append.mp hx with hx | hx
    · exact List.mem_append_left _ (List.mem_of_mem_drop hx)
    · exact List.mem_append_right _ hx
  obtain ⟨hn, hparse⟩ := normalize_kept (by simp) hs hkept
  rw [hsh]
  refine ⟨hn, ?_⟩
  have hloc : d ++ (p.drop d.length ++ [c]) = p ++ [c] := by rw [← List.append_assoc, take_drop_prefix hdp]
  have hreal : Real fs (d ++ (p.drop d.length ++ [c])) := by rw [hloc]; exact .inr ⟨_, hc⟩
  have hcan := canonicalize_below h hd hdd hreal
  rw [hloc] at hcan hreal
  have hl : ∀ l, cfg.directoryList = some l → ((PPath.parse cfg.directory).join ⟨false, p.drop d.length ++ [c]⟩).endsWith (PPath.parse l) = false := by
    intro l hcl
    obtain ⟨h1, h2⟩ := hlist l hcl
    simp only [h1, PPath.endsWith, PPath.join, Bool.false_eq_true, if_false]
    rw [← Bool.not_eq_true, List.isSuffixOf_iff_suffix]
    rintro ⟨t, ht⟩
    have := congrArg List.getLast? ht
    rw [← List.append_assoc] at this
    simp only [List.getLast?_concat, Option.some.injEq] at this
    exact h2 this
  have hv : validatePath ⟨false, p.drop d.length ++ [c]⟩ cfg.maxDepth = true := by
    simp only [validatePath, List.length_append, List.length_singleton, decide_eq_true_eq] at hdepth ⊢; omega
  have hpre := List.isPrefixOf_iff_prefix.mpr (hdp.trans (List.prefix_append p [c]))
  unfold serverReader
  simp only [hparse, hv, if_true]
  cases hcl : cfg.directoryList with
  | none => simp only [Bool.false_eq_true, if_false, hcan, hd, hpre, if_true, canonicalize_real h cwd _ hreal, Option.map_some]
  | some l => simp only [hl l hcl, Bool.false_eq_true, if_false, hcan, hd, hpre, if_true, canonicalize_real h cwd _ hreal, Option.map_some]

/-- **C58**: the line of a directory, followed by the name of the listing, gives the listing of this directory. -/
theorem c58_listed_directory_partial (fs : Fs) (cwd : List Bytes) (cfg : DirCfg) (h : fs.WF) (hos : OsNames fs) (d p : List Bytes) (c l : Bytes)
    (hd : canonicalize fs cwd (PPath.parse cfg.directory) = some d) (hdp : d <+: p) (hdd : fs d = some .dir)
    (hc : fs (p ++ [c]) = some .dir) (hkept : ∀ x ∈ p.drop d.length ++ [c, l], Kept x)
    (hdepth : (p.drop d.length ++ [c]).length ≤ cfg.maxDepth)
    (hlist : cfg.directoryList = some l) (hl47 : (47 : UInt8) ∉ l) :
    normalizeName (shown fs d p c ++ l) = some (shown fs d p c ++ l) ∧
      serverReader fs cwd cfg (shown fs d p c ++ l) = some (.listing (p ++ [c])) := by
  have hsh : shown fs d p c ++ l = pathOf (p.drop d.length ++ [c] ++ [l]) := by
    rw [pathOf_append_one _ _ (by simp)]
    simp [shown, hc]
  have hway := names_on_way h hos (p := p ++ [c]) (by rw [hc]; simp)
  have hs : ∀ x ∈ p.drop d.length ++ [c] ++ [l], (47 : UInt8) ∉ x := by
    intro x hx
    rcases List.mem_append.mp hx with hx | hx
    · refine (hway x ?_).2.1
      rcases List.mem_append.mp hx with hx | hx
      · exact List.mem_append_left _ (List.mem_of_mem_drop hx)
      · exact List.mem_append_right _ hx
    · simp only [List.mem_singleton] at hx; subst hx; exact hl47
  have hkept' : ∀ x ∈ p.drop d.length ++ [c] ++ [l], Kept x := by simpa using hkept
  obtain ⟨hn, hparse⟩ := normalize_kept (by simp) hs hkept'
  have hlp : PPath.parse l = ⟨false, [l]⟩ := by
    have := (normalize_kept (cs := [l]) (by simp) (by simpa using hl47) (fun x hx => hkept' x (by simp at hx; simp [hx]))).2
    rwa [pathOf_single] at this
  rw [hsh]
  refine ⟨hn, ?_⟩
  have hloc : d ++ (p.drop d.length ++ [c]) = p ++ [c] := by rw [← List.append_assoc, take_drop_prefix hdp]
  have hreal : Real fs (d ++ (p.drop d.length ++ [c])) := by rw [hloc]; exact .inl hc
  have hcan := canonicalize_below h hd hdd hreal
  rw [hloc] at hcan
  have hends : ((PPath.parse cfg.directory).join ⟨false, p.drop d.length ++ [c] ++ [l]⟩).endsWith (PPath.parse l) = true := by
    simp only [hlp, PPath.endsWith, PPath.join, Bool.false_eq_true, if_false]
    rw [List.isSuffixOf_iff_suffix]
    exact ⟨(PPath.parse cfg.directory).comps ++ (p.drop d.length ++ [c]), by simp⟩
  have hpar : ((PPath.parse cfg.directory).join ⟨false, p.drop d.length ++ [c] ++ [l]⟩).parent =
      some ((PPath.parse cfg.directory).join ⟨false, p.drop d.length ++ [c]⟩) := by
    have e : (PPath.parse cfg.directory).comps ++ (p.drop d.length ++ [c] ++ [l]) =
        ((PPath.parse cfg.directory).comps ++ (p.drop d.length ++ [c])) ++ [l] := by simp
    simp only [PPath.parent, PPath.join, Bool.false_eq_true, if_false, e, List.dropLast_concat]
    rw [if_neg (by simp)]
  unfold serverReader
  simp only [hparse, hlist, hends, if_true, hpar, Option.bind_some, hcan, hd]
  rw [if_pos (by simp only [validatePath, List.length_append, List.length_singleton, decide_eq_true_eq] at hdepth ⊢; omega),
    if_pos (List.isPrefixOf_iff_prefix.mpr (hdp.trans (List.prefix_append _ _))), if_pos hc]

/-- **C58**, finding: a file with the name of the listing cannot be fetched: whatever the request, if its last component is the name of the listing, no file
is opened. -/
theorem c58_listing_hides_file (fs : Fs) (cwd : List Bytes) (cfg : DirCfg) (l name : Bytes) (loc : List Bytes) (hl : cfg.directoryList = some l)
    (hp : PPath.parse l = ⟨false, [l]⟩) (hn : (PPath.parse name).abs = false) (hlast : (PPath.parse name).comps.getLast? = some l) :
    serverReader fs cwd cfg name ≠ some (.file loc) := by
  have hends : ((PPath.parse cfg.directory).join (PPath.parse name)).endsWith (PPath.parse l) = true := by
    simp only [hp, PPath.endsWith, PPath.join, hn, Bool.false_eq_true, if_false]
    rw [List.isSuffixOf_iff_suffix]
    obtain ⟨t, ht⟩ := List.getLast?_eq_some_iff.mp hlast
    exact ⟨(PPath.parse cfg.directory).comps ++ t, by rw [ht]; simp⟩
  unfold serverReader
  simp only [hl, hends, if_true]
  split
  · split
    · split
      · split <;> simp
      · simp
    · simp
  · simp

/-- **C58**: whenever the server opens a listing, `list_directory` can name all entries. -/
theorem c58_listing_total (lossy : Bytes → Bytes) (fs : Fs) (cwd : List Bytes) (cfg : DirCfg) (name : Bytes) (p names : List Bytes) (h : fs.WF)
    (hcwd : fs cwd = some .dir) (hh : serverReader fs cwd cfg name = some (.listing p)) :
    ∃ d, canonicalize fs cwd (PPath.parse cfg.directory) = some d ∧ (listDirectory lossy fs d p names).isSome := by
  obtain ⟨d, q, h1, -, h2, h3, -⟩ := c20_reader fs cwd cfg name _ h hcwd hh
  refine ⟨d, h1, ?_⟩
  have : q = p := by
    rcases h2 with ⟨h2, -⟩ | ⟨h2, -⟩
    · cases h2
    · injection h2 with h2; exact h2.symm
  subst this
  induction names with
  | nil => rfl
  | cons c r ih =>
    unfold listDirectory listLine stripPrefix
    rw [if_pos (prefix_append h3 c).1]
    obtain ⟨x, hx⟩ := Option.isSome_iff_exists.mp ih
    rw [hx]
    rfl

/-! ### Stored and fetched under the same name -/

theorem Keeps.refl (fs : Fs) : Keeps fs fs := ⟨fun _ h => h, fun _ d h => ⟨d, h⟩, fun _ _ _ h => h⟩

theorem Keeps.trans {a b c : Fs} (h : Keeps a b) (k : Keeps b c) : Keeps a c :=
  ⟨fun q hq => k.dir q (h.dir q hq), fun q d hq => by obtain ⟨d', hd⟩ := h.file q d hq; exact k.file q d' hd, fun q x t hq => k.link q x t (h.link q x t hq)⟩

theorem writer_keeps {fs fs' : Fs} {cwd : List Bytes} {cfg : DirCfg} {name : Bytes} {r : Option (List Bytes)} (h : fs.WF) (hcwd : fs cwd = some .dir)
    (hh : serverWriter fs cwd cfg name = (fs', r)) : Keeps fs fs' := by
  obtain ⟨-, h2, h3⟩ := c20_writer fs fs' cwd cfg name r h hcwd hh
  have key : ∀ q n, fs q = some n → fs' q = some n ∨ (fs' q = some (.file []) ∧ ∃ x, n = .file x) := by
    intro q n hq
    by_cases hr : r = some q
    · obtain ⟨p1, -, -, -, -, p2⟩ := h3 q hr
      rcases p2 with p2 | ⟨x, p2⟩
      · rw [p2] at hq; cases hq
      · rw [p2] at hq; cases hq; exact .inr ⟨p1, _, rfl⟩
    · exact .inl (h2 q n hq hr)
  refine ⟨fun q hq => ?_, fun q d hq => ?_, fun q a t hq => ?_⟩
  · rcases key q _ hq with h | ⟨-, x, h⟩
    · exact h
    · cases h
  · rcases key q _ hq with h | ⟨h, -⟩ <;> exact ⟨_, h⟩
  · rcases key q _ hq with h | ⟨-, x, h⟩
    · exact h
    · cases h

theorem disk_step_keeps {s : Disk} {cwd : List Bytes} {cfg : DirCfg} (h : s.fs.WF) (hcwd : s.fs cwd = some .dir) (e : DiskEv) :
    Keeps s.fs (s.step cwd cfg e).fs ∧ (s.step cwd cfg e).fs.WF := by
  cases e with
  | upload name =>
    obtain ⟨fs', r, hw⟩ : ∃ fs' r, serverWriter s.fs cwd cfg name = (fs', r) := ⟨_, _, rfl⟩
    have hk := writer_keeps h hcwd hw
    have hwf := (c20_writer s.fs fs' cwd cfg name r h hcwd hw).1
    simp only [Disk.step, hw]
    cases r <;> exact ⟨hk, hwf⟩
  | write i data =>
    simp only [Disk.step]
    split
    · exact ⟨.refl _, h⟩
    · split
      · rename_i x _ d hx
        exact ⟨keeps_set_file _ hx, h.set_file _ hx⟩
      · exact ⟨.refl _, h⟩

theorem disk_run_keeps {s : Disk} {cwd : List Bytes} {cfg : DirCfg} (h : s.fs.WF) (hcwd : s.fs cwd = some .dir) (es : List DiskEv) :
    Keeps s.fs (s.run cwd cfg es).fs ∧ (s.run cwd cfg es).fs.WF := by
  induction es generalizing s with
  | nil => exact ⟨.refl _, h⟩
  | cons e r ih =>
    obtain ⟨h1, h2⟩ := disk_step_keeps (cfg := cfg) h hcwd e
    obtain ⟨h3, h4⟩ := ih h2 (h1.dir _ hcwd)
    exact ⟨h1.trans h3, h4⟩

/-- Specification: the name is not one of a listing. -/
def Spec.NoListing (cfg : DirCfg) (name : Bytes) : Prop :=
  ∀ l, cfg.directoryList = some l → ((PPath.parse cfg.directory).join (PPath.parse name)).endsWith (PPath.parse l) = false

theorem reader_of_path {fs : Fs} {cwd : List Bytes} {cfg : DirCfg} {name : Bytes} {d p : List Bytes} (h : fs.WF) (hr : Real fs p)
    (hd : canonicalize fs cwd (PPath.parse cfg.directory) = some d) (hp : canonicalize fs cwd ((PPath.parse cfg.directory).join (PPath.parse name)) = some p)
    (hdp : d <+: p) (hv : (PPath.parse name).comps.length ≤ cfg.maxDepth + 1) (hl : NoListing cfg name) : serverReader fs cwd cfg name = some (.file p) := by
  have hv : validatePath (PPath.parse name) cfg.maxDepth = true := by
    simp only [validatePath, decide_eq_true_eq]; omega
  have hpre := List.isPrefixOf_iff_prefix.mpr hdp
  unfold serverReader
  simp only [hv, if_true]
  cases hcl : cfg.directoryList with
  | none => simp only [Bool.false_eq_true, if_false, hp, hd, hpre, if_true, canonicalize_real h cwd _ hr, Option.map_some]
  | some l => simp only [hl l hcl, Bool.false_eq_true, if_false, hp, hd, hpre, if_true, canonicalize_real h cwd _ hr, Option.map_some]

/-- **C59**: once a file has been opened for an upload, whatever else is uploaded before or afterwards, a read request with the same name is served from the
same file. -/
theorem c59_same_name_same_file (cwd : List Bytes) (cfg : DirCfg) (fs0 : Fs) (h : fs0.WF) (hc : fs0 cwd = some .dir)
    (before after : List DiskEv) (name : Bytes) (p : List Bytes) (hup : (serverWriter (Disk.run cwd cfg ⟨fs0, []⟩ before).fs cwd cfg name).2 = some p)
    (hl : NoListing cfg name) :
    serverReader (Disk.run cwd cfg ⟨fs0, []⟩ (before ++ .upload name :: after)).fs cwd cfg name = some (.file p) := by
  obtain ⟨k1, w1⟩ := disk_run_keeps (s := ⟨fs0, []⟩) (cfg := cfg) h hc before
  rw [Disk.run, List.foldl_append, List.foldl_cons]
  have e1 : before.foldl (Disk.step cwd cfg) ⟨fs0, []⟩ = Disk.run cwd cfg ⟨fs0, []⟩ before := rfl
  rw [e1]
  generalize Disk.run cwd cfg ⟨fs0, []⟩ before = s at *
  have hcwd := k1.dir _ hc
  obtain ⟨fs', r, hw⟩ : ∃ fs' r, serverWriter s.fs cwd cfg name = (fs', r) := ⟨_, _, rfl⟩
  have hr : r = some p := by rw [hw] at hup; exact hup
  obtain ⟨wf', -, h3⟩ := c20_writer s.fs fs' cwd cfg name r w1 hcwd hw
  obtain ⟨p1, ⟨d, d1, d2, d3⟩, p2, p3, -⟩ := h3 p hr
  have hk := writer_keeps w1 hcwd hw
  have hs : (s.step cwd cfg (.upload name)).fs = fs' := by
    simp only [Disk.step, hw, hr]
  obtain ⟨k2, w2⟩ := disk_run_keeps (s := s.step cwd cfg (.upload name)) (cfg := cfg) (by rw [hs]; exact wf') (by rw [hs]; exact hk.dir _ hcwd) after
  rw [hs] at k2
  have hreal : Real (Disk.run cwd cfg (s.step cwd cfg (.upload name)) after).fs p := .inr (k2.file _ _ p1)
  exact reader_of_path w2 hreal (resolve_mono k2 false _ _ _ _ d1) (resolve_mono k2 false _ _ _ _ p2) d3 p3 hl

theorem run_handle {cwd : List Bytes} {cfg : DirCfg} {s : Disk} {i : Nat} {x : Handle} (hx : s.handles[i]? = some x) (es : List DiskEv) :
    ∃ y, (s.run cwd cfg es).handles[i]? = some y ∧ y.loc = x.loc := by
  induction es generalizing s x with
  | nil => exact ⟨x, hx, rfl⟩
  | cons e r ih =>
    have : ∃ y, (s.step cwd cfg e).handles[i]? = some y ∧ y.loc = x.loc := by
      cases e with
      | upload name =>
        simp only [Disk.step]
        split
        · refine ⟨x, ?_, rfl⟩
          rw [List.getElem?_append_left]
          · exact hx
          · exact (List.getElem?_eq_some_iff.mp hx).1
        · exact ⟨x, hx, rfl⟩
      | write j data =>
        simp only [Disk.step]
        split
        · exact ⟨x, hx, rfl⟩
        · rename_i y hy
          split
          · by_cases hj : j = i
            · subst hj
              rw [hx] at hy
              cases hy
              refine ⟨_, List.getElem?_set_self (List.getElem?_eq_some_iff.mp hx).1, rfl⟩
            · exact ⟨x, by simp only; rw [List.getElem?_set_ne hj]; exact hx, rfl⟩
          · exact ⟨x, hx, rfl⟩
    obtain ⟨y, hy, e1⟩ := this
    obtain ⟨z, hz, e2⟩ := ih hy
    exact ⟨z, hz, e2.trans e1⟩

/-- **C59**: without `allow_overwrite`, a read request with the name of an upload finds exactly the bytes which this upload has written. -/
theorem c59_fetch_what_was_stored (cwd : List Bytes) (cfg : DirCfg) (fs0 : Fs) (hno : cfg.overwrite = false) (h : fs0.WF) (hc : fs0 cwd = some .dir)
    (before after : List DiskEv) (name : Bytes) (p : List Bytes) (hup : (serverWriter (Disk.run cwd cfg ⟨fs0, []⟩ before).fs cwd cfg name).2 = some p)
    (hl : NoListing cfg name) :
    ∃ x, (Disk.run cwd cfg ⟨fs0, []⟩ (before ++ .upload name :: after)).handles[(Disk.run cwd cfg ⟨fs0, []⟩ before).handles.length]? = some x ∧
      serverReader (Disk.run cwd cfg ⟨fs0, []⟩ (before ++ .upload name :: after)).fs cwd cfg name = some (.file x.loc) ∧
      (Disk.run cwd cfg ⟨fs0, []⟩ (before ++ .upload name :: after)).fs x.loc = some (.file x.wrote) := by
  have hr := c59_same_name_same_file cwd cfg fs0 h hc before after name p hup hl
  have hx : ∃ x, (Disk.run cwd cfg ⟨fs0, []⟩ (before ++ .upload name :: after)).handles[(Disk.run cwd cfg ⟨fs0, []⟩ before).handles.length]? = some x ∧ x.loc = p := by
    rw [Disk.run, List.foldl_append, List.foldl_cons]
    have e1 : before.foldl (Disk.step cwd cfg) ⟨fs0, []⟩ = Disk.run cwd cfg ⟨fs0, []⟩ before := rfl
    rw [e1]
    generalize Disk.run cwd cfg ⟨fs0, []⟩ before = s at *
    obtain ⟨fs', r, hw⟩ : ∃ fs' r, serverWriter s.fs cwd cfg name = (fs', r) := ⟨_, _, rfl⟩
    have hp : r = some p := by rw [hw] at hup; exact hup
    refine run_handle (x := ⟨p, 0, []⟩) ?_ after
    simp only [Disk.step, hw, hp]
    simp
  obtain ⟨x, h1, h2⟩ := hx
  refine ⟨x, h1, by rw [h2]; exact hr, ?_⟩
  exact (c55_own_bytes_partial cwd cfg fs0 hno h hc _).2 x (List.mem_of_getElem? h1)

/-! ### Examples -/

theorem fsOf_mem {l : List (List Bytes × Node)} {q : List Bytes} (h : fsOf l q ≠ none) : ∃ n, (q, n) ∈ l := by
  unfold fsOf at h
  cases hf : l.find? (fun x => x.1 == q) with
  | none => rw [hf] at h; simp at h
  | some y =>
    have h1 := List.mem_of_find?_eq_some hf
    have h2 := List.find?_some hf
    have : y = (q, y.2) := Prod.ext (by simpa using h2) rfl
    rw [this] at h1
    exact ⟨_, h1⟩

theorem fsOf_osNames {l : List (List Bytes × Node)} (h : l.all (fun x => decide (x.1.getLast? ≠ some [] ∧ ∀ c ∈ x.1, (47 : UInt8) ∉ c)) = true) : OsNames (fsOf l) := by
  intro p c hp
  obtain ⟨n, hn⟩ := fsOf_mem hp
  have := List.all_eq_true.mp h _ hn
  simp only [List.getLast?_concat, decide_eq_true_eq] at this
  exact ⟨fun e => this.1 (by rw [e]), this.2 c (by simp)⟩

theorem fsOf_entries {l : List (List Bytes × Node)} {p names : List Bytes} (h : names.Nodup) (h1 : ∀ c ∈ names, fsOf l (p ++ [c]) ≠ none)
    (h2 : l.all (fun x => decide (x.1 = [] ∨ x.1.dropLast ≠ p ∨ ∃ c ∈ names, x.1.getLast? = some c)) = true) : Entries (fsOf l) p names := by
  refine ⟨h, fun c => ⟨h1 c, fun hp => ?_⟩⟩
  obtain ⟨n, hn⟩ := fsOf_mem hp
  have := List.all_eq_true.mp h2 _ hn
  simp only [decide_eq_true_eq, List.dropLast_concat, List.getLast?_concat] at this
  rcases this with h | h | ⟨x, hx, e⟩
  · simp at h
  · exact absurd rfl h
  · cases e; exact hx

/-- The listing of `/s` in `demoFs` meets the conditions of `c58_listing_partial`. -/
example : (OsNames demoFs ∧ demoFs.WF ∧ Entries demoFs [[115]] [[97], [100], [108]]) ∧
    listDirectory id demoFs [[115]] [[115]] [[97], [100], [108]] = some (ascii "a\nd/\nl\n") ∧
    serverReader demoFs [] ⟨[47, 115], some (ascii "ls"), 5, false⟩ (ascii "ls") = some (.listing [[115]]) :=
  ⟨⟨fsOf_osNames (by decide), demoFs_wf, fsOf_entries (by decide) (by decide) (by decide)⟩, by decide, by decide⟩

theorem kept_of {c : Bytes} (h : trim c = c) (h1 : c ≠ []) (h2 : c ≠ [46]) (h3 : c ≠ [46, 46]) : Kept c := by
  unfold Kept; rw [h]; exact ⟨h1, h2, h3⟩

/-- The listed file `a` and the listed directory `d/` can be requested. -/
example : serverReader demoFs [] ⟨[47, 115], some (ascii "ls"), 5, false⟩ (shown demoFs [[115]] [[115]] [97]) = some (.file [[115], [97]]) ∧
    serverReader demoFs [] ⟨[47, 115], some (ascii "ls"), 5, false⟩ (shown demoFs [[115]] [[115]] [100] ++ ascii "ls") = some (.listing [[115], [100]]) := by
  refine ⟨(c58_listed_file_partial demoFs [] ⟨[47, 115], some (ascii "ls"), 5, false⟩ demoFs_wf (fsOf_osNames (by decide)) [[115]] [[115]] [97] [1] (by decide) (by decide) (by decide) (by decide)
      ?_ (by decide) ?_).2,
    (c58_listed_directory_partial demoFs [] ⟨[47, 115], some (ascii "ls"), 5, false⟩ demoFs_wf (fsOf_osNames (by decide)) [[115]] [[115]] [100] (ascii "ls") (by decide) (by decide) (by decide) (by decide)
      ?_ (by decide) rfl (by decide)).2⟩
  · intro x hx
    have : x = [97] := by simpa using hx
    subst this
    exact kept_of (trim_id rfl rfl) (by decide) (by decide) (by decide)
  · intro l hl
    cases hl
    decide
  · intro x hx
    have : x = [100] ∨ x = ascii "ls" := by simpa using hx
    rcases this with rfl | rfl
    · exact kept_of (trim_id rfl rfl) (by decide) (by decide) (by decide)
    · exact kept_of (trim_id rfl rfl) (by decide) (by decide) (by decide)

/-- **C58**, finding: names may contain line breaks. An upload of `x⏎e` (which is not refused) makes the listing show the entries `x` and `e`, none of which exists. -/
theorem c58_newline_forges_entry :
    let cfg : DirCfg := ⟨[47, 115], some (ascii "ls"), 5, false⟩
    let y := serverWriter demoFs [] cfg (ascii "x\ne")
    normalizeName (ascii "x\ne") = some (ascii "x\ne") ∧ y.2 = some [[115], ascii "x\ne"] ∧
    (∃ text, listDirectory id y.1 [[115]] [[115]] [ascii "x\ne", [97], [100], [108]] = some text ∧
      Lines text [ascii "x", ascii "e", ascii "a", ascii "d/", ascii "l"]) ∧
    y.1 [[115], ascii "x"] = none ∧ y.1 [[115], ascii "e"] = none := by
  refine ⟨?_, by decide, ⟨_, rfl, ⟨by decide, by decide⟩⟩, by decide, by decide⟩
  have h := (normalize_kept (cs := [ascii "x\ne"]) (by simp) (by decide) (fun x hx => ?_)).1
  · rwa [pathOf_single] at h
  · have : x = ascii "x\ne" := by simpa using hx
    subst this
    exact kept_of (trim_id rfl rfl) (by decide) (by decide) (by decide)

/-- The hypotheses of `c58_listing_hides_file`: a file `/s/ls` can be stored but then not be fetched. -/
example : (serverWriter demoFs [] ⟨[47, 115], some (ascii "ls"), 5, false⟩ (ascii "ls")).2 = some [[115], ascii "ls"] ∧
    PPath.parse (ascii "ls") = ⟨false, [ascii "ls"]⟩ ∧
    serverReader (serverWriter demoFs [] ⟨[47, 115], some (ascii "ls"), 5, false⟩ (ascii "ls")).1 [] ⟨[47, 115], some (ascii "ls"), 5, false⟩ (ascii "ls") = some (.listing [[115]]) := by
  decide

/-- The hypotheses of `c59_fetch_what_was_stored`: `d/m` is uploaded between other uploads. -/
example : (serverWriter (Disk.run [] ⟨[47, 115], none, 5, false⟩ ⟨demoFs, []⟩ [.upload [110], .write 0 [1, 2]]).fs [] ⟨[47, 115], none, 5, false⟩ [100, 47, 109]).2 =
      some [[115], [100], [109]] ∧
    NoListing ⟨[47, 115], none, 5, false⟩ [100, 47, 109] ∧
    serverReader (Disk.run [] ⟨[47, 115], none, 5, false⟩ ⟨demoFs, []⟩ ([.upload [110], .write 0 [1, 2]] ++ .upload [100, 47, 109] :: [.write 1 [9], .write 0 [3]])).fs []
      ⟨[47, 115], none, 5, false⟩ [100, 47, 109] = some (.file [[115], [100], [109]]) :=
  ⟨by decide, (by intro l hl; cases hl), by decide⟩

end Tftp

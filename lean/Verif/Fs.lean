import Verif.Path
/-
C20: opening of requested files by the server binary, std-binary/src/io.rs, on a file system with directories, files and
symbolic links.

Simplifications: nobody else changes the file system while a file is opened; permissions and device errors are left out
(an error of a step has the effect of the refusals below); paths are component lists, i.e. a trailing slash is ignored;
the contents of a directory listing are in Listing.lean.
-/
namespace Tftp

/-- What a real location of the file system holds. A link's target may be absolute. -/
inductive Node
  | dir
  | file (data : Bytes)
  | link (abs : Bool) (target : List Bytes)
deriving DecidableEq

/-- A file system: locations are given by the names from the root, without following links. -/
abbrev Fs := List Bytes → Option Node

/-- Specification: a tree. Everything is in a directory, and no name is `.` or `..`. -/
structure Fs.WF (fs : Fs) : Prop where
  root : fs [] = some .dir
  parent : ∀ p c, fs (p ++ [c]) ≠ none → fs p = some .dir
  names : ∀ p c, fs (p ++ [c]) ≠ none → c ≠ [46] ∧ c ≠ [46, 46]

/-- One pass of path resolution by the operating system from the real directory `cur`. `k` continues after a link.
`create`: the last component may be missing (`O_CREAT`). -/
def walk (fs : Fs) (create : Bool) (k : List Bytes → List Bytes → Option (List Bytes)) (cur : List Bytes) :
    List Bytes → Option (List Bytes)
  | [] => some cur
  | c :: r =>
    if c = [46] then walk fs create k cur r
    else if c = [46, 46] then walk fs create k cur.dropLast r
    else match fs (cur ++ [c]) with
      | none => if create = true ∧ r = [] then some (cur ++ [c]) else none
      | some .dir => walk fs create k (cur ++ [c]) r
      | some (.file _) => if r = [] then some (cur ++ [c]) else none
      | some (.link abs t) => k (if abs then [] else cur) (t ++ r)

/-- Path resolution following at most `n` links (`ELOOP`). -/
def resolve (fs : Fs) (create : Bool) : Nat → List Bytes → List Bytes → Option (List Bytes)
  | 0 => walk fs create fun _ _ => none
  | n + 1 => walk fs create (resolve fs create n)

/-- A parsed path: std `Path::components`. -/
structure PPath where
  abs : Bool
  comps : List Bytes
deriving DecidableEq

/-- std `Path::components`: empty components and `.` are dropped, except a leading `.`. -/
def PPath.parse (b : Bytes) : PPath :=
  let pieces := splitSlash b
  let keep := pieces.filter fun c => c ≠ [] ∧ c ≠ [46]
  ⟨b.head? = some 47, if pieces.head? = some [46] then [46] :: keep else keep⟩

/-- std `Path::join`. -/
def PPath.join (d p : PPath) : PPath := if p.abs then p else ⟨d.abs, d.comps ++ p.comps⟩

/-- std `Path::starts_with`. -/
def PPath.startsWith (p d : PPath) : Bool := p.abs == d.abs && d.comps.isPrefixOf p.comps

/-- std `Path::ends_with`. -/
def PPath.endsWith (p d : PPath) : Bool := if d.abs then p == d else d.comps.isSuffixOf p.comps

/-- std `Path::parent`. -/
def PPath.parent (p : PPath) : Option PPath := if p.comps = [] then none else some ⟨p.abs, p.comps.dropLast⟩

/-- The kernel's limit for links in a path. -/
def maxLinks : Nat := 40

/-- std `fs::canonicalize`, in a process with the real working directory `cwd`. -/
def canonicalize (fs : Fs) (cwd : List Bytes) (p : PPath) : Option (List Bytes) :=
  resolve fs false maxLinks (if p.abs then [] else cwd) p.comps

/-- The server configuration used here: src/server/config.rs:9-26. -/
structure DirCfg where
  directory : Bytes
  directoryList : Option Bytes
  maxDepth : Nat
  overwrite : Bool

/-- std-binary/src/io.rs:220-234 `validate_path`: all components kept by `components()` of a relative or absolute path
are `Normal`, `ParentDir` or `CurDir`. -/
def validatePath (p : PPath) (maxDepth : Nat) : Bool := decide (p.comps.length - 1 ≤ maxDepth)

/-- A reader handed to the transfer. -/
inductive RHandle
  | file (location : List Bytes)
  | listing (location : List Bytes)
deriving DecidableEq

/-- std-binary/src/io.rs:55-90 `create_server_reader`. -/
def serverReader (fs : Fs) (cwd : List Bytes) (cfg : DirCfg) (name : Bytes) : Option RHandle :=
  let req := PPath.parse name
  if validatePath req cfg.maxDepth then
    let dir := PPath.parse cfg.directory
    let path := dir.join req
    let list := match cfg.directoryList with
      | some l => path.endsWith (PPath.parse l)
      | none => false
    let real := if list then path.parent.bind (canonicalize fs cwd) else canonicalize fs cwd path
    match canonicalize fs cwd dir, real with
    | some d, some p =>
      if d.isPrefixOf p then
        if list then if fs p = some .dir then some (.listing p) else none
        -- `create_reader`: the canonical path is opened again
        else (canonicalize fs cwd ⟨true, p⟩).map .file
      else none
    | _, _ => none
  else none

/-- Change one location. -/
def Fs.set (fs : Fs) (p : List Bytes) (n : Node) : Fs := fun q => if q = p then some n else fs q

/-- std `Path::is_dir`: follows links. -/
def isDir (fs : Fs) (cwd : List Bytes) (p : PPath) : Bool :=
  match canonicalize fs cwd p with
  | some q => fs q == some .dir
  | none => false

inductive MkRes | ok | notFound | other
deriving DecidableEq

/-- `mkdir(2)`; does not follow a link in the last component. -/
def mkdir (fs : Fs) (start : List Bytes) (comps : List Bytes) : Fs × MkRes :=
  match comps.getLast? with
  | none => (fs, .other)
  | some c =>
    match resolve fs false maxLinks start comps.dropLast with
    | none => (fs, .notFound)
    | some q =>
      if fs q = some .dir ∧ c ≠ [46] ∧ c ≠ [46, 46] ∧ fs (q ++ [c]) = none then (fs.set (q ++ [c]) .dir, .ok)
      else (fs, .other)

/-- std `fs::create_dir_all` for the first `n` of the components (`DirBuilder::create_dir_all`): try to create the
directory; if its parent is missing create that first. -/
def createDirAll (fs : Fs) (start : List Bytes) (comps : List Bytes) : Nat → Fs × Bool
  | 0 => (fs, true)
  | n + 1 =>
    match mkdir fs start (comps.take (n + 1)) with
    | (fs, .ok) => (fs, true)
    | (fs, .other) => (fs, isDir fs start ⟨false, comps.take (n + 1)⟩)
    | (fs, .notFound) =>
      match createDirAll fs start comps n with
      | (fs, false) => (fs, false)
      | (fs, true) =>
        match mkdir fs start (comps.take (n + 1)) with
        | (fs, .ok) => (fs, true)
        | (fs, _) => (fs, isDir fs start ⟨false, comps.take (n + 1)⟩)

/-- `open(O_WRONLY | O_CREAT)`: follows links, also to a missing target. -/
def openCreate (fs : Fs) (start : List Bytes) (comps : List Bytes) : Fs × Option (List Bytes) :=
  match resolve fs true maxLinks start comps with
  | none => (fs, none)
  | some p => match fs p with
    | none => (fs.set p (.file []), some p)
    | some (.file _) => (fs, some p)
    | some _ => (fs, none)

/-- `open(O_WRONLY | O_CREAT | O_EXCL)`: the last component must not exist, not even as a link. -/
def openNew (fs : Fs) (start : List Bytes) (comps : List Bytes) : Fs × Option (List Bytes) :=
  match comps.getLast? with
  | none => (fs, none)
  | some c =>
    match resolve fs false maxLinks start comps.dropLast with
    | none => (fs, none)
    | some q =>
      if fs q = some .dir ∧ c ≠ [46] ∧ c ≠ [46, 46] ∧ fs (q ++ [c]) = none then
        (fs.set (q ++ [c]) (.file []), some (q ++ [c]))
      else (fs, none)

/-- `open(O_WRONLY | O_CREAT | O_TRUNC)` of the canonical path. -/
def openTruncate (fs : Fs) (start : List Bytes) (comps : List Bytes) : Fs × Option (List Bytes) :=
  match openCreate fs start comps with
  | (fs, none) => (fs, none)
  | (fs, some p) => (fs.set p (.file []), some p)

/-- std-binary/src/io.rs:91-132 `create_server_writer`: the file system afterwards and the location of the opened file. -/
def serverWriter (fs : Fs) (cwd : List Bytes) (cfg : DirCfg) (name : Bytes) : Fs × Option (List Bytes) :=
  let req := PPath.parse name
  if validatePath req cfg.maxDepth then
    let dir := PPath.parse cfg.directory
    let path := dir.join req
    let start := if path.abs then [] else cwd
    if path.startsWith dir then
      let parentOk := match path.parent with
        | none => (fs, true)
        | some q => if isDir fs cwd q then (fs, true) else createDirAll fs start q.comps q.comps.length
      match parentOk with
      | (fs, false) => (fs, none)
      | (fs, true) =>
        match (if cfg.overwrite then openCreate fs start path.comps else openNew fs start path.comps) with
        | (fs, none) => (fs, none)
        | (fs, some h) =>
          match canonicalize fs cwd dir, canonicalize fs cwd path with
          | some d, some p =>
            if d.isPrefixOf p then
              if cfg.overwrite then openTruncate fs [] p else (fs, some h)
            else (fs, none)
          | _, _ => (fs, none)
    else (fs, none)
  else (fs, none)

/-! ### Path resolution -/

/-- Specification: a real location: it exists and is not a link. By `Fs.WF` all locations above it are directories, so
it is reached without following a link. -/
def Spec.Real (fs : Fs) (p : List Bytes) : Prop := fs p = some .dir ∨ ∃ d, fs p = some (.file d)

theorem Fs.WF.above {fs : Fs} (h : fs.WF) (q : List Bytes) (x : Bytes) (r : List Bytes) (hr : fs (q ++ x :: r) ≠ none) :
    fs q = some .dir := by
  induction r generalizing q x with
  | nil => exact h.parent q x hr
  | cons y r ih =>
    have := ih (q ++ [x]) y (by simpa using hr)
    exact h.parent q x (by rw [this]; simp)

theorem Spec.Real.ne_none {fs : Fs} {p : List Bytes} (h : Spec.Real fs p) : fs p ≠ none := by
  rcases h with h | ⟨d, h⟩ <;> (rw [h]; simp)

theorem Fs.WF.dropLast {fs : Fs} (h : fs.WF) {p : List Bytes} (hp : fs p = some .dir) : fs p.dropLast = some .dir := by
  rcases List.eq_nil_or_concat p with rfl | ⟨q, c, rfl⟩
  · simpa using h.root
  · rw [List.concat_eq_append] at hp ⊢
    rw [List.dropLast_concat]
    exact h.parent q c (by rw [hp]; simp)

/-- What resolution can return: a real location, or when creating a missing one in a real directory. -/
theorem walk_real {fs : Fs} (h : fs.WF) {create : Bool} {k} (hk : ∀ cur comps p, fs cur = some .dir → k cur comps = some p →
      Spec.Real fs p ∨ (create = true ∧ fs p = none ∧ ∃ q c, p = q ++ [c] ∧ fs q = some .dir ∧ c ≠ [46] ∧ c ≠ [46, 46]))
    (comps cur p : List Bytes) (hc : fs cur = some .dir) (hw : walk fs create k cur comps = some p) :
    Spec.Real fs p ∨ (create = true ∧ fs p = none ∧ ∃ q c, p = q ++ [c] ∧ fs q = some .dir ∧ c ≠ [46] ∧ c ≠ [46, 46]) := by
  induction comps generalizing cur with
  | nil => cases hw; exact .inl (.inl hc)
  | cons c r ih =>
    unfold walk at hw
    split at hw
    · exact ih cur hc hw
    · rename_i h1
      split at hw
      · exact ih _ (h.dropLast hc) hw
      · rename_i h2
        split at hw
        · rename_i hn
          split at hw
          · rename_i hcr
            cases hw
            exact .inr ⟨hcr.1, hn, cur, c, rfl, hc, h1, h2⟩
          · cases hw
        · rename_i hn
          exact ih _ hn hw
        · rename_i d hn
          split at hw
          · cases hw; exact .inl (.inr ⟨d, hn⟩)
          · cases hw
        · rename_i a t hn
          refine hk _ _ _ ?_ hw
          cases a
          · exact hc
          · exact h.root

theorem resolve_real {fs : Fs} (h : fs.WF) {create : Bool} (n : Nat) (comps cur p : List Bytes) (hc : fs cur = some .dir)
    (hw : resolve fs create n cur comps = some p) :
    Spec.Real fs p ∨ (create = true ∧ fs p = none ∧ ∃ q c, p = q ++ [c] ∧ fs q = some .dir ∧ c ≠ [46] ∧ c ≠ [46, 46]) := by
  induction n generalizing cur comps p with
  | zero => exact walk_real h (fun _ _ _ _ h => by cases h) comps cur p hc hw
  | succ n ih => exact walk_real h (fun cur comps p hc h => ih comps cur p hc h) comps cur p hc hw

/-- Walking down real locations. -/
theorem walk_down {fs : Fs} (h : fs.WF) {create : Bool} {k} (cur comps : List Bytes) (hr : Spec.Real fs (cur ++ comps)) :
    walk fs create k cur comps = some (cur ++ comps) := by
  induction comps generalizing cur with
  | nil => simp [walk]
  | cons c r ih =>
    have hr' : Spec.Real fs (cur ++ [c] ++ r) := by simpa using hr
    have hne : fs (cur ++ [c]) ≠ none := by
      cases r with
      | nil => exact hr.ne_none
      | cons x r => rw [h.above _ x r hr'.ne_none]; simp
    have hn := h.names cur c hne
    unfold walk
    rw [if_neg hn.1, if_neg hn.2]
    cases r with
    | nil =>
      rcases hr with h | ⟨d, h⟩
      · rw [h]; simp [walk]
      · rw [h]; simp
    | cons x r =>
      have hd : fs (cur ++ [c]) = some .dir := h.above _ x r hr'.ne_none
      rw [hd]
      simp only
      rw [ih _ hr']
      simp

/-- A real location is its own canonical path. -/
theorem canonicalize_real {fs : Fs} (h : fs.WF) (cwd p : List Bytes) (hr : Spec.Real fs p) :
    canonicalize fs cwd ⟨true, p⟩ = some p :=
  walk_down h [] p hr

/-- **C20**, reading: a returned reader is for a real location inside the real server directory, within the directory
depth. -/
theorem c20_reader (fs : Fs) (cwd : List Bytes) (cfg : DirCfg) (name : Bytes) (hr : RHandle) (h : fs.WF)
    (hcwd : fs cwd = some .dir) (hh : serverReader fs cwd cfg name = some hr) :
    ∃ d p, canonicalize fs cwd (PPath.parse cfg.directory) = some d ∧ Spec.Real fs d ∧
      ((hr = .file p ∧ Spec.Real fs p) ∨ (hr = .listing p ∧ fs p = some .dir)) ∧ d <+: p ∧
      (PPath.parse name).comps.length ≤ cfg.maxDepth + 1 := by
  have hs : ∀ (q : PPath), fs (if q.abs then [] else cwd) = some .dir := by
    intro q; split
    · exact h.root
    · exact hcwd
  have hreal : ∀ (q : PPath) p, canonicalize fs cwd q = some p → Spec.Real fs p := by
    intro q p hq
    rcases resolve_real h _ _ _ _ (hs q) hq with h | h
    · exact h
    · cases h.1
  unfold serverReader at hh
  simp only at hh
  split at hh
  · rename_i hv
    have hv : (PPath.parse name).comps.length ≤ cfg.maxDepth + 1 := by
      simp only [validatePath, decide_eq_true_eq] at hv; omega
    generalize (match cfg.directoryList with
      | some l => ((PPath.parse cfg.directory).join (PPath.parse name)).endsWith (PPath.parse l)
      | none => false) = list at hh
    split at hh
    · rename_i d p hd hp
      have hp' : Spec.Real fs p := by
        split at hp
        · obtain ⟨q, -, hq⟩ := Option.bind_eq_some_iff.mp hp
          exact hreal _ _ hq
        · exact hreal _ _ hp
      split at hh
      · rename_i hpre
        refine ⟨d, p, hd, hreal _ _ hd, ?_, List.isPrefixOf_iff_prefix.mp hpre, hv⟩
        split at hh
        · split at hh
          · cases hh; exact .inr ⟨rfl, by assumption⟩
          · cases hh
        · rw [canonicalize_real h cwd p hp'] at hh
          cases hh
          exact .inl ⟨rfl, hp'⟩
      · cases hh
    · cases hh
  · cases hh

/-! ### Writing -/

/-- Directories and links stay, files stay files. -/
structure Keeps (fs fs' : Fs) : Prop where
  dir : ∀ q, fs q = some .dir → fs' q = some .dir
  file : ∀ q d, fs q = some (.file d) → ∃ d', fs' q = some (.file d')
  link : ∀ q a t, fs q = some (.link a t) → fs' q = some (.link a t)

/-- Nothing which exists changes. -/
def Spec.Unchanged (fs fs' : Fs) : Prop := ∀ q n, fs q = some n → fs' q = some n

theorem Spec.Unchanged.keeps {fs fs' : Fs} (h : Spec.Unchanged fs fs') : Keeps fs fs' :=
  ⟨fun q => h q _, fun q d hq => ⟨d, h q _ hq⟩, fun q _ _ => h q _⟩

theorem Spec.Unchanged.refl (fs : Fs) : Spec.Unchanged fs fs := fun _ _ h => h

theorem Spec.Unchanged.trans {a b c : Fs} (h1 : Spec.Unchanged a b) (h2 : Spec.Unchanged b c) : Spec.Unchanged a c :=
  fun q n h => h2 q n (h1 q n h)

theorem Fs.set_eq (fs : Fs) (p : List Bytes) (n : Node) : fs.set p n p = some n := by simp [Fs.set]

theorem Fs.set_ne (fs : Fs) {p q : List Bytes} (n : Node) (h : q ≠ p) : fs.set p n q = fs q := by simp [Fs.set, h]

theorem unchanged_set {fs : Fs} {p : List Bytes} (n : Node) (h : fs p = none) : Spec.Unchanged fs (fs.set p n) := by
  intro q m hq
  rw [Fs.set_ne]
  · exact hq
  · rintro rfl; rw [h] at hq; cases hq

theorem Fs.WF.set_new {fs : Fs} (h : fs.WF) {q : List Bytes} {c : Bytes} (n : Node) (hq : fs q = some .dir)
    (h1 : c ≠ [46]) (h2 : c ≠ [46, 46]) (hn : fs (q ++ [c]) = none) : (fs.set (q ++ [c]) n).WF := by
  refine ⟨?_, ?_, ?_⟩
  · rw [Fs.set_ne _ _ (by simp)]; exact h.root
  · intro p x hp
    by_cases he : p ++ [x] = q ++ [c]
    · have : p = q := by simpa using congrArg List.dropLast he
      subst this
      rw [Fs.set_ne _ _ (by simp)]; exact hq
    · rw [Fs.set_ne _ _ he] at hp
      have := h.parent p x hp
      rw [Fs.set_ne]
      · exact this
      · rintro rfl; rw [hn] at this; cases this
  · intro p x hp
    by_cases he : p ++ [x] = q ++ [c]
    · have : x = c := by simpa using congrArg List.getLast? he
      subst this
      exact ⟨h1, h2⟩
    · rw [Fs.set_ne _ _ he] at hp
      exact h.names p x hp

theorem Fs.WF.set_file {fs : Fs} (h : fs.WF) {p : List Bytes} {d : Bytes} (d' : Bytes) (hp : fs p = some (.file d)) :
    (fs.set p (.file d')).WF := by
  have hne : ∀ q, fs.set p (.file d') q ≠ none → fs q ≠ none := by
    intro q hq
    by_cases he : q = p
    · rw [he, hp]; simp
    · rwa [Fs.set_ne _ _ he] at hq
  have hd : ∀ q, fs q = some .dir → fs.set p (.file d') q = some .dir := by
    intro q hq
    rw [Fs.set_ne]
    · exact hq
    · rintro rfl; rw [hp] at hq; cases hq
  exact ⟨hd _ h.root, fun q c hq => hd _ (h.parent q c (hne _ hq)), fun q c hq => h.names q c (hne _ hq)⟩

theorem keeps_set_file {fs : Fs} {p : List Bytes} {d : Bytes} (d' : Bytes) (hp : fs p = some (.file d)) :
    Keeps fs (fs.set p (.file d')) := by
  refine ⟨fun q hq => ?_, fun q x hq => ?_, fun q a t hq => ?_⟩
  · rw [Fs.set_ne]
    · exact hq
    · rintro rfl; rw [hp] at hq; cases hq
  · by_cases he : q = p
    · exact ⟨d', by rw [he, Fs.set_eq]⟩
    · exact ⟨x, by rw [Fs.set_ne _ _ he]; exact hq⟩
  · rw [Fs.set_ne]
    · exact hq
    · rintro rfl; rw [hp] at hq; cases hq

theorem walk_mono {fs fs' : Fs} (h : Keeps fs fs') {create : Bool} {k k'}
    (hk : ∀ cur comps p, k cur comps = some p → k' cur comps = some p) (comps cur p : List Bytes)
    (hw : walk fs false k cur comps = some p) : walk fs' create k' cur comps = some p := by
  induction comps generalizing cur with
  | nil => exact hw
  | cons c r ih =>
    unfold walk at hw ⊢
    split at hw
    · rw [if_pos (by assumption)]; exact ih _ hw
    · rw [if_neg (by assumption)]
      split at hw
      · rw [if_pos (by assumption)]; exact ih _ hw
      · rw [if_neg (by assumption)]
        split at hw
        · simp at hw
        · rename_i hn; rw [h.dir _ hn]; exact ih _ hw
        · rename_i d hn; obtain ⟨d', hd⟩ := h.file _ _ hn; rw [hd]; exact hw
        · rename_i a t hn; rw [h.link _ _ _ hn]; exact hk _ _ _ hw

theorem resolve_mono {fs fs' : Fs} (h : Keeps fs fs') (create : Bool) (n : Nat) (comps cur p : List Bytes)
    (hw : resolve fs false n cur comps = some p) : resolve fs' create n cur comps = some p := by
  induction n generalizing cur comps p with
  | zero => exact walk_mono h (fun _ _ _ h => h) comps cur p hw
  | succ n ih => exact walk_mono h (fun cur comps p h => ih comps cur p h) comps cur p hw

/-- Continuation of `resolve` after a link. -/
def afterLink (fs : Fs) (create : Bool) : Nat → List Bytes → List Bytes → Option (List Bytes)
  | 0 => fun _ _ => none
  | n + 1 => resolve fs create n

theorem resolve_eq (fs : Fs) (create : Bool) (n : Nat) (cur comps : List Bytes) :
    resolve fs create n cur comps = walk fs create (afterLink fs create n) cur comps := by
  cases n <;> rfl

/-- Resolving a longer path continues after its first part. -/
theorem resolve_append {fs : Fs} {create : Bool} {d : List Bytes} (hd : fs d = some .dir) (n : Nat) (comps cur : List Bytes)
    (hw : resolve fs false n cur comps = some d) :
    ∃ m ≤ n, ∀ rest, resolve fs create n cur (comps ++ rest) = resolve fs create m d rest := by
  induction n generalizing comps cur with
  | zero =>
    refine ⟨0, Nat.le_refl 0, fun rest => ?_⟩
    rw [resolve_eq] at hw
    simp only [resolve_eq]
    induction comps generalizing cur with
    | nil => cases hw; rfl
    | cons c r ih =>
      rw [List.cons_append]
      unfold walk at hw
      rw [walk]
      split at hw
      · rw [if_pos (by assumption)]; exact ih _ hw
      · rw [if_neg (by assumption)]
        split at hw
        · rw [if_pos (by assumption)]; exact ih _ hw
        · rw [if_neg (by assumption)]
          split at hw
          · simp at hw
          · exact ih _ hw
          · rename_i x hn
            split at hw
            · cases hw; rw [hd] at hn; cases hn
            · cases hw
          · cases hw
  | succ n ihn =>
    rw [resolve_eq] at hw
    simp only [resolve_eq (n := n + 1)]
    induction comps generalizing cur with
    | nil => cases hw; exact ⟨n + 1, Nat.le_refl _, fun rest => by rw [resolve_eq]; rfl⟩
    | cons c r ih =>
      simp only [List.cons_append]
      unfold walk at hw
      simp only [walk]
      split at hw
      · rename_i h1; simp only [if_pos h1]; exact ih _ hw
      · rename_i h1
        simp only [if_neg h1]
        split at hw
        · rename_i h2; simp only [if_pos h2]; exact ih _ hw
        · rename_i h2
          simp only [if_neg h2]
          split at hw
          · simp at hw
          · rename_i hn; exact ih _ hw
          · rename_i x hn
            split at hw
            · cases hw; rw [hd] at hn; cases hn
            · cases hw
          · rename_i a t hn
            obtain ⟨m, hm, hr⟩ := ihn (t ++ r) _ hw
            refine ⟨m, by omega, fun rest => ?_⟩
            rw [← hr rest, List.append_assoc]
            rfl

theorem dir_set_file {fs : Fs} {q : List Bytes} {c : Bytes} {n : Node} (hq : fs q = some .dir) :
    fs.set (q ++ [c]) n q = some .dir := by rw [Fs.set_ne _ _ (by simp)]; exact hq

theorem mkdir_spec {fs fs' : Fs} {start comps : List Bytes} {r : MkRes} (h : fs.WF)
    (hm : mkdir fs start comps = (fs', r)) : fs'.WF ∧ Spec.Unchanged fs fs' := by
  unfold mkdir at hm
  split at hm
  · cases hm; exact ⟨h, .refl _⟩
  · split at hm
    · cases hm; exact ⟨h, .refl _⟩
    · split at hm
      · rename_i hc
        cases hm
        exact ⟨h.set_new _ hc.1 hc.2.1 hc.2.2.1 hc.2.2.2, unchanged_set _ hc.2.2.2⟩
      · cases hm; exact ⟨h, .refl _⟩

theorem createDirAll_spec {fs fs' : Fs} {start comps : List Bytes} {n : Nat} {b : Bool} (h : fs.WF)
    (hm : createDirAll fs start comps n = (fs', b)) : fs'.WF ∧ Spec.Unchanged fs fs' := by
  induction n generalizing fs fs' b with
  | zero => cases hm; exact ⟨h, .refl _⟩
  | succ n ih =>
    unfold createDirAll at hm
    split at hm
    · rename_i h1; cases hm; exact mkdir_spec h h1
    · rename_i h1; cases hm; exact mkdir_spec h h1
    · rename_i h1
      obtain ⟨w1, u1⟩ := mkdir_spec h h1
      split at hm
      · rename_i h2
        cases hm
        obtain ⟨w2, u2⟩ := ih w1 h2
        exact ⟨w2, u1.trans u2⟩
      · rename_i h2
        obtain ⟨w2, u2⟩ := ih w1 h2
        split at hm <;>
        · rename_i h3
          cases hm
          obtain ⟨w3, u3⟩ := mkdir_spec w2 h3
          exact ⟨w3, (u1.trans u2).trans u3⟩

/-- Opening a file for writing without truncation. -/
theorem openCreate_spec {fs fs' : Fs} {start comps : List Bytes} {r : Option (List Bytes)} (h : fs.WF)
    (hs : fs start = some .dir) (hm : openCreate fs start comps = (fs', r)) :
    fs'.WF ∧ Spec.Unchanged fs fs' ∧ ∀ p, r = some p → ∃ d, fs' p = some (.file d) := by
  unfold openCreate at hm
  split at hm
  · cases hm; exact ⟨h, .refl _, nofun⟩
  · rename_i p hp
    have hr := resolve_real h _ _ _ _ hs hp
    split at hm
    · rename_i hn
      cases hm
      rcases hr with hr | ⟨-, -, q, c, rfl, hq, h1, h2⟩
      · exact absurd hn hr.ne_none
      · exact ⟨h.set_new _ hq h1 h2 hn, unchanged_set _ hn, fun p hp => by cases hp; exact ⟨[], Fs.set_eq _ _ _⟩⟩
    · rename_i d hn
      cases hm
      exact ⟨h, .refl _, fun p hp => by cases hp; exact ⟨d, hn⟩⟩
    · cases hm; exact ⟨h, .refl _, nofun⟩

/-- Opening a new file. -/
theorem openNew_spec {fs fs' : Fs} {start comps : List Bytes} {r : Option (List Bytes)} (h : fs.WF)
    (hm : openNew fs start comps = (fs', r)) :
    fs'.WF ∧ Spec.Unchanged fs fs' ∧ ∀ p, r = some p → fs' p = some (.file []) ∧ fs p = none ∧
      resolve fs' false maxLinks start comps = some p := by
  unfold openNew at hm
  split at hm
  · cases hm; exact ⟨h, .refl _, nofun⟩
  · rename_i c hc
    split at hm
    · cases hm; exact ⟨h, .refl _, nofun⟩
    · rename_i q hq
      split at hm
      · rename_i hn
        cases hm
        have hw := h.set_new (.file []) hn.1 hn.2.1 hn.2.2.1 hn.2.2.2
        have hu := unchanged_set (.file []) hn.2.2.2
        refine ⟨hw, hu, fun p hp => ?_⟩
        cases hp
        refine ⟨Fs.set_eq _ _ _, hn.2.2.2, ?_⟩
        have hcomps : comps = comps.dropLast ++ [c] := by
          have h0 : comps ≠ [] := by rintro rfl; cases hc
          rw [List.getLast?_eq_some_getLast h0] at hc
          cases hc
          exact (List.dropLast_concat_getLast h0).symm
        obtain ⟨m, -, hm⟩ := resolve_append (create := false) (hu q _ hn.1) maxLinks comps.dropLast start
          (resolve_mono hu.keeps false _ _ _ _ hq)
        rw [hcomps, hm, resolve_eq]
        simp [walk, hn.2.1, hn.2.2.1, Fs.set_eq]
      · cases hm; exact ⟨h, .refl _, nofun⟩

/-- **C20**, writing: a returned file is at a real location inside the real server directory, within the directory depth; it
is the one which the name denotes; it is empty; without `allow_overwrite` it did not exist before. Whatever the outcome, nothing else which existed is changed. -/
theorem c20_writer (fs fs' : Fs) (cwd : List Bytes) (cfg : DirCfg) (name : Bytes) (r : Option (List Bytes)) (h : fs.WF)
    (hcwd : fs cwd = some .dir) (hh : serverWriter fs cwd cfg name = (fs', r)) :
    fs'.WF ∧ (∀ q n, fs q = some n → r ≠ some q → fs' q = some n) ∧
    ∀ p, r = some p →
      fs' p = some (.file []) ∧
      (∃ d, canonicalize fs' cwd (PPath.parse cfg.directory) = some d ∧ Spec.Real fs' d ∧ d <+: p) ∧
      canonicalize fs' cwd ((PPath.parse cfg.directory).join (PPath.parse name)) = some p ∧
      (PPath.parse name).comps.length ≤ cfg.maxDepth + 1 ∧
      (cfg.overwrite = false → fs p = none) ∧ (fs p = none ∨ ∃ x, fs p = some (.file x)) := by
  have triv : ∀ {g : Fs}, g.WF → Spec.Unchanged fs g → g.WF ∧ (∀ q n, fs q = some n → none ≠ some q → g q = some n) ∧
      ∀ p, none = some p → g p = some (.file []) ∧
      (∃ d, canonicalize g cwd (PPath.parse cfg.directory) = some d ∧ Spec.Real g d ∧ d <+: p) ∧
      canonicalize g cwd ((PPath.parse cfg.directory).join (PPath.parse name)) = some p ∧
      (PPath.parse name).comps.length ≤ cfg.maxDepth + 1 ∧
      (cfg.overwrite = false → fs p = none) ∧ (fs p = none ∨ ∃ x, fs p = some (.file x)) := fun w u => ⟨w, fun q n hq _ => u q n hq, nofun⟩
  unfold serverWriter at hh
  simp only at hh
  split at hh
  · rename_i hv
    have hv : (PPath.parse name).comps.length ≤ cfg.maxDepth + 1 := by
      simp only [validatePath, decide_eq_true_eq] at hv; omega
    generalize hpath : (PPath.parse cfg.directory).join (PPath.parse name) = path at hh triv ⊢
    split at hh
    · have hpar : ∀ g b, (match path.parent with
          | none => (fs, true)
          | some q => if isDir fs cwd q then (fs, true) else
            createDirAll fs (if path.abs then [] else cwd) q.comps q.comps.length) = (g, b) →
          g.WF ∧ Spec.Unchanged fs g := by
        intro g b hg
        split at hg
        · cases hg; exact ⟨h, .refl _⟩
        · split at hg
          · cases hg; exact ⟨h, .refl _⟩
          · exact createDirAll_spec h hg
      split at hh
      · rename_i g hg
        cases hh
        obtain ⟨w, u⟩ := hpar _ _ hg
        exact triv w u
      · rename_i g hg
        obtain ⟨w, u⟩ := hpar _ _ hg
        have hstart : g (if path.abs then [] else cwd) = some .dir := by
          split
          · exact w.root
          · exact u _ _ hcwd
        have hopen : ∀ g' o, (if cfg.overwrite then openCreate g (if path.abs then [] else cwd) path.comps
            else openNew g (if path.abs then [] else cwd) path.comps) = (g', o) →
            g'.WF ∧ Spec.Unchanged g g' ∧ (cfg.overwrite = false → ∀ p, o = some p → g' p = some (.file []) ∧ g p = none ∧
              canonicalize g' cwd path = some p) ∧ (∀ p, o = some p → ∃ d, g' p = some (.file d)) := by
          intro g' o ho
          split at ho
          · rename_i hov
            obtain ⟨a, b, c⟩ := openCreate_spec w hstart ho
            refine ⟨a, b, fun hf => ?_, c⟩
            rw [hov] at hf; cases hf
          · obtain ⟨a, b, c⟩ := openNew_spec w ho
            exact ⟨a, b, fun _ p hp => c p hp, fun p hp => ⟨_, (c p hp).1⟩⟩
        split at hh
        · rename_i g' ho
          cases hh
          obtain ⟨w', u', -, -⟩ := hopen _ _ ho
          exact triv w' (u.trans u')
        · rename_i g' o ho
          obtain ⟨w', u', hnew, -⟩ := hopen _ _ ho
          have hcwd' : ∀ (q : PPath), g' (if q.abs then [] else cwd) = some .dir := by
            intro q; split
            · exact w'.root
            · exact u' _ _ (u _ _ hcwd)
          have hreal : ∀ (q : PPath) p, canonicalize g' cwd q = some p → Spec.Real g' p := by
            intro q p hq
            rcases resolve_real w' _ _ _ _ (hcwd' q) hq with h | h
            · exact h
            · cases h.1
          split at hh
          · rename_i d p hd hp
            split at hh
            · rename_i hpre
              have hpre := List.isPrefixOf_iff_prefix.mp hpre
              split at hh
              · -- overwrite: the file is opened again
                unfold openTruncate openCreate at hh
                have hp' := canonicalize_real w' cwd p (hreal _ _ hp)
                have hp'' : resolve g' true maxLinks [] p = some p := walk_down w' [] p (hreal _ _ hp)
                rw [hp''] at hh
                simp only at hh
                rcases hreal _ _ hp with hdir | ⟨x, hx⟩
                · rw [hdir] at hh
                  cases hh
                  exact triv w' (u.trans u')
                · rw [hx] at hh
                  cases hh
                  have hk := keeps_set_file [] hx
                  refine ⟨w'.set_file [] hx, ?_, ?_⟩
                  · intro q n hq hne
                    rw [Fs.set_ne]
                    · exact u' _ _ (u _ _ hq)
                    · rintro rfl; exact hne rfl
                  · intro q hq
                    cases hq
                    refine ⟨Fs.set_eq _ _ _, ⟨d, resolve_mono hk false _ _ _ _ hd, ?_, hpre⟩, resolve_mono hk false _ _ _ _ hp, hv, fun hf => ?_, ?_⟩
                    · rcases hreal _ _ hd with h | ⟨y, h⟩
                      · exact .inl (hk.dir _ h)
                      · exact .inr (hk.file _ _ h)
                    · rename_i hov; rw [hov] at hf; cases hf
                    · cases hf : fs p with
                      | none => exact .inl rfl
                      | some n =>
                        have := u' _ _ (u _ _ hf)
                        rw [hx] at this
                        cases this
                        exact .inr ⟨_, rfl⟩
              · rename_i hov
                cases hh
                obtain ⟨n1, n2, n3⟩ := hnew (by simpa using hov) _ rfl
                rw [n3] at hp
                cases hp
                refine ⟨w', fun q n hq _ => u' _ _ (u _ _ hq), fun q hq => ?_⟩
                cases hq
                have hnone : fs o = none := by
                  cases hf : fs o with
                  | none => rfl
                  | some n => rw [u _ _ hf] at n2; cases n2
                exact ⟨n1, ⟨d, hd, hreal _ _ hd, hpre⟩, n3, hv, fun _ => hnone, .inl hnone⟩
            · cases hh; exact triv w' (u.trans u')
          · cases hh; exact triv w' (u.trans u')
    · cases hh; exact triv h (.refl _)
  · cases hh; exact triv h (.refl _)

/-! ### What a refused request may leave behind -/

/-- No links in or below a directory. -/
def Spec.NoLinksBelow (fs : Fs) (d : List Bytes) : Prop := ∀ q a t, d <+: q → fs q ≠ some (.link a t)

/-- Components which are names. -/
def Spec.PlainNames (cs : List Bytes) : Prop := ∀ c ∈ cs, c ≠ [46] ∧ c ≠ [46, 46]

theorem walk_plain {fs : Fs} {create : Bool} {k} {d : List Bytes} (hl : Spec.NoLinksBelow fs d) (comps cur p : List Bytes)
    (hc : Spec.PlainNames comps) (hd : d <+: cur) (hw : walk fs create k cur comps = some p) : p = cur ++ comps := by
  induction comps generalizing cur with
  | nil => cases hw; simp
  | cons c r ih =>
    have h1 := hc c (by simp)
    have hr : Spec.PlainNames r := fun x hx => hc x (by simp [hx])
    have hd' : d <+: cur ++ [c] := hd.trans (List.prefix_append _ _)
    unfold walk at hw
    rw [if_neg h1.1, if_neg h1.2] at hw
    split at hw
    · split at hw
      · rename_i h; cases hw; rw [h.2]
      · cases hw
    · rw [ih _ hr hd' hw]; simp
    · split at hw
      · rename_i h; cases hw; rw [h]
      · cases hw
    · rename_i a t hn
      exact absurd hn (hl _ a t hd')

/-- The state of the file system while a file is opened below `d`. -/
structure Contained (fs0 : Fs) (d start dc : List Bytes) (fs : Fs) : Prop where
  wf : fs.WF
  unchanged : Spec.Unchanged fs0 fs
  nolinks : Spec.NoLinksBelow fs d
  outside : ∀ q, ¬ d <+: q → fs q = fs0 q
  here : resolve fs false maxLinks start dc = some d
  dir : fs d = some .dir

theorem Contained.resolve {fs0 fs : Fs} {d start dc : List Bytes} (h : Contained fs0 d start dc fs) {create : Bool}
    {rc p : List Bytes} (hc : Spec.PlainNames rc) (hr : Tftp.resolve fs create maxLinks start (dc ++ rc) = some p) :
    p = d ++ rc := by
  obtain ⟨m, -, hm⟩ := resolve_append (create := create) h.dir maxLinks dc start h.here
  rw [hm, resolve_eq] at hr
  exact walk_plain h.nolinks rc d p hc (List.prefix_refl d) hr

theorem Contained.set {fs0 fs : Fs} {d start dc : List Bytes} (h : Contained fs0 d start dc fs) {q : List Bytes} {c : Bytes}
    {n : Node} (hn : ∀ a t, n ≠ .link a t) (hq : fs q = some .dir) (h1 : c ≠ [46]) (h2 : c ≠ [46, 46])
    (hf : fs (q ++ [c]) = none) (hd : d <+: q ++ [c]) : Contained fs0 d start dc (fs.set (q ++ [c]) n) := by
  have hu := unchanged_set n hf
  refine ⟨h.wf.set_new n hq h1 h2 hf, h.unchanged.trans hu, ?_, ?_, resolve_mono hu.keeps false _ _ _ _ h.here,
    hu _ _ h.dir⟩
  · intro x a t hx
    by_cases he : x = q ++ [c]
    · rw [he, Fs.set_eq]; simpa using hn a t
    · rw [Fs.set_ne _ _ he]; exact h.nolinks x a t hx
  · intro x hx
    rw [Fs.set_ne]
    · exact h.outside x hx
    · rintro rfl; exact hx hd

theorem dropLast_append_ne {a b : List Bytes} (h : b ≠ []) : (a ++ b).dropLast = a ++ b.dropLast :=
  List.dropLast_append_of_ne_nil h

theorem Contained.mkdir {fs0 fs fs' : Fs} {d start dc : List Bytes} (h : Contained fs0 d start dc fs) {rc : List Bytes}
    {r : MkRes} (hc : Spec.PlainNames rc) (h0 : rc ≠ []) (hm : mkdir fs start (dc ++ rc) = (fs', r)) :
    Contained fs0 d start dc fs' ∧ (rc.length = 1 → r ≠ .notFound) := by
  unfold Tftp.mkdir at hm
  rw [List.getLast?_append, List.getLast?_eq_some_getLast h0] at hm
  simp only [Option.some_or] at hm
  rw [dropLast_append_ne h0] at hm
  have hcl : Spec.PlainNames rc.dropLast := fun x hx => hc x (List.dropLast_subset _ hx)
  split at hm
  · rename_i hn
    cases hm
    refine ⟨h, fun hl => ?_⟩
    have : rc.dropLast = [] := by
      apply List.eq_nil_of_length_eq_zero; simp [hl]
    rw [this, List.append_nil, h.here] at hn
    cases hn
  · rename_i q hq
    have hqd := h.resolve hcl hq
    split at hm
    · rename_i hk
      cases hm
      refine ⟨h.set (by simp) hk.1 hk.2.1 hk.2.2.1 hk.2.2.2 ?_, by simp⟩
      rw [hqd, List.append_assoc]
      exact List.prefix_append _ _
    · cases hm; exact ⟨h, by simp⟩

theorem Contained.createDirAll {fs0 fs fs' : Fs} {d start dc : List Bytes} (h : Contained fs0 d start dc fs)
    {rc : List Bytes} (hc : Spec.PlainNames rc) {n : Nat} {b : Bool} (hn : n + 1 ≤ rc.length)
    (hm : createDirAll fs start (dc ++ rc) (dc.length + (n + 1)) = (fs', b)) : Contained fs0 d start dc fs' := by
  have htake : ∀ k, (dc ++ rc).take (dc.length + k) = dc ++ rc.take k := fun k => by rw [List.take_length_add_append]
  have hpt : ∀ k, Spec.PlainNames (rc.take k) := fun k x hx => hc x (List.mem_of_mem_take hx)
  induction n generalizing fs fs' b with
  | zero =>
    unfold Tftp.createDirAll at hm
    simp only [htake] at hm
    have hne : rc.take (0 + 1) ≠ [] := by
      intro e; have := congrArg List.length e; rw [List.length_take, List.length_nil] at this; omega
    split at hm
    · rename_i h1; cases hm; exact (h.mkdir (hpt _) hne h1).1
    · rename_i h1; cases hm; exact (h.mkdir (hpt _) hne h1).1
    · rename_i h1
      exact absurd rfl ((h.mkdir (hpt _) hne h1).2 (by simp; omega))
  | succ n ih =>
    have hne : rc.take (n + 1 + 1) ≠ [] := by
      intro e; have := congrArg List.length e; rw [List.length_take, List.length_nil] at this; omega
    rw [← Nat.add_assoc dc.length] at hm
    unfold Tftp.createDirAll at hm
    simp only [Nat.add_assoc dc.length, htake] at hm
    split at hm
    · rename_i h1; cases hm; exact (h.mkdir (hpt _) hne h1).1
    · rename_i h1; cases hm; exact (h.mkdir (hpt _) hne h1).1
    · rename_i h1
      have c1 := (h.mkdir (hpt _) hne h1).1
      split at hm
      · rename_i h2; cases hm; exact ih c1 (by omega) h2
      · rename_i h2
        have c2 := ih c1 (by omega) h2
        split at hm <;>
        · rename_i h3; cases hm; exact (c2.mkdir (hpt _) hne h3).1

/-- Nothing outside the server directory is changed if there are no links in it: `c20_writer_contained` for names of plain
components. -/
theorem c20_writer_contained_names (fs fs' : Fs) (cwd : List Bytes) (cfg : DirCfg) (name : Bytes) (r : Option (List Bytes))
    (d : List Bytes) (h : fs.WF) (hcwd : fs cwd = some .dir) (hdir : canonicalize fs cwd (PPath.parse cfg.directory) = some d)
    (hd : fs d = some .dir) (hl : Spec.NoLinksBelow fs d) (habs : (PPath.parse name).abs = false)
    (hne : (PPath.parse name).comps ≠ []) (hname : Spec.PlainNames (PPath.parse name).comps)
    (hh : serverWriter fs cwd cfg name = (fs', r)) :
    ∀ q, ¬ d <+: q → fs' q = fs q := by
  have hjoin : (PPath.parse cfg.directory).join (PPath.parse name) =
      ⟨(PPath.parse cfg.directory).abs, (PPath.parse cfg.directory).comps ++ (PPath.parse name).comps⟩ := by
    unfold PPath.join; rw [habs]; rfl
  unfold serverWriter at hh
  simp only [hjoin] at hh
  generalize hstart : (if (PPath.parse cfg.directory).abs then [] else cwd) = start at hh
  have hsd : fs start = some .dir := by
    rw [← hstart]; split
    · exact h.root
    · exact hcwd
  unfold canonicalize at hdir
  rw [hstart] at hdir
  generalize hdc : (PPath.parse cfg.directory).comps = dc at hh hdir
  generalize hrc : (PPath.parse name).comps = rc at hh hne hname
  have c0 : Contained fs d start dc fs := ⟨h, .refl _, hl, fun _ _ => rfl, hdir, hd⟩
  have hrd : Spec.PlainNames rc.dropLast := fun x hx => hname x (List.dropLast_subset _ hx)
  split at hh
  · split at hh
    · have hpar : ∀ g b, (match (PPath.mk (PPath.parse cfg.directory).abs (dc ++ rc)).parent with
          | none => (fs, true)
          | some q => if isDir fs cwd q then (fs, true) else createDirAll fs start q.comps q.comps.length) = (g, b) →
          Contained fs d start dc g := by
        intro g b hg
        unfold PPath.parent at hg
        simp only [List.append_eq_nil_iff, hne, and_false, if_false, dropLast_append_ne hne] at hg
        split at hg
        · cases hg; exact c0
        · rename_i hnd
          rcases Nat.eq_zero_or_pos rc.dropLast.length with hz | hz
          · -- the server directory itself
            exfalso
            apply hnd
            have : rc.dropLast = [] := List.eq_nil_of_length_eq_zero hz
            unfold isDir canonicalize
            simp only [this, List.append_nil, hstart, hdir, hd]
            rfl
          · rw [List.length_append] at hg
            obtain ⟨n, hn⟩ : ∃ n, rc.dropLast.length = n + 1 := ⟨rc.dropLast.length - 1, by omega⟩
            rw [hn] at hg
            exact c0.createDirAll hrd (by omega) hg
      split at hh
      · rename_i g hg
        cases hh
        exact (hpar _ _ hg).outside
      · rename_i g hg
        have cg := hpar _ _ hg
        have hs : g start = some .dir := cg.unchanged _ _ hsd
        have hopen : ∀ g' o, (if cfg.overwrite then openCreate g start (dc ++ rc) else openNew g start (dc ++ rc)) =
            (g', o) → Contained fs d start dc g' := by
          intro g' o ho
          split at ho
          · unfold openCreate at ho
            split at ho
            · cases ho; exact cg
            · rename_i p hp
              have hpd := cg.resolve hname hp
              split at ho
              · rename_i hn
                cases ho
                rcases resolve_real cg.wf _ _ _ _ hs hp with hr | ⟨-, -, q, c, rfl, hq, h1, h2⟩
                · exact absurd hn hr.ne_none
                · exact cg.set (by simp) hq h1 h2 hn (by rw [hpd]; exact List.prefix_append _ _)
              · cases ho; exact cg
              · cases ho; exact cg
          · unfold openNew at ho
            rw [List.getLast?_append, List.getLast?_eq_some_getLast hne] at ho
            simp only [Option.some_or] at ho
            rw [dropLast_append_ne hne] at ho
            split at ho
            · cases ho; exact cg
            · rename_i q hq
              have hqd := cg.resolve hrd hq
              split at ho
              · rename_i hk
                cases ho
                refine cg.set (by simp) hk.1 hk.2.1 hk.2.2.1 hk.2.2.2 ?_
                rw [hqd, List.append_assoc]
                exact List.prefix_append _ _
              · cases ho; exact cg
        split at hh
        · rename_i g' ho
          cases hh
          exact (hopen _ _ ho).outside
        · rename_i g' o ho
          have cg' := hopen _ _ ho
          split at hh
          · rename_i d' p hd' hp
            split at hh
            · rename_i hpre
              split at hh
              · unfold canonicalize at hp
                simp only [hstart] at hp
                have hpd := cg'.resolve hname hp
                have hs' : g' start = some .dir := cg'.unchanged _ _ hsd
                have hreal : Spec.Real g' p := by
                  rcases resolve_real cg'.wf _ _ _ _ hs' hp with h | h
                  · exact h
                  · cases h.1
                unfold openTruncate openCreate at hh
                have hp'' : resolve g' true maxLinks [] p = some p := walk_down cg'.wf [] p hreal
                rw [hp''] at hh
                simp only at hh
                rcases hreal with hx | ⟨x, hx⟩
                · rw [hx] at hh; cases hh; exact cg'.outside
                · rw [hx] at hh
                  cases hh
                  intro q hq
                  rw [Fs.set_ne]
                  · exact cg'.outside q hq
                  · rintro rfl
                    exact hq (by rw [hpd]; exact List.prefix_append _ _)
              · cases hh; exact cg'.outside
            · cases hh; exact cg'.outside
          · cases hh; exact cg'.outside
    · cases hh; exact fun _ _ => rfl
  · cases hh; exact fun _ _ => rfl

/-- The names passed on by the server (C19) are relative and consist of plain components. -/
theorem normalized_parse (n name : Bytes) (h : normalizeName n = some name) :
    (PPath.parse name).abs = false ∧ (PPath.parse name).comps ≠ [] ∧ Spec.PlainNames (PPath.parse name).comps := by
  obtain ⟨cs, hc, rfl, hp, hh, -, -⟩ := c19_safe n name h
  have hs := splitSlash_pathOf cs hc
  have hf : cs.filter (fun c => decide (c ≠ [] ∧ c ≠ [46])) = cs :=
    List.filter_eq_self.mpr fun c hcc => by simpa using ⟨(hp c hcc).1, (hp c hcc).2.1⟩
  have hhd : cs.head? ≠ some [46] := by
    intro e
    have : ([46] : Bytes) ∈ cs := List.mem_of_mem_head? e
    exact (hp _ this).2.1 rfl
  have hcomps : (PPath.parse (Spec.pathOf cs)).comps = cs := by
    unfold PPath.parse
    simp only [hs, hf, if_neg hhd]
  refine ⟨?_, ?_, ?_⟩
  · unfold PPath.parse; simpa using hh
  · rw [hcomps]; exact hc.1
  · rw [hcomps]; exact fun c hcc => ⟨(hp c hcc).2.1, (hp c hcc).2.2⟩

/-- **C20**, writing: if there is no symbolic link inside the server directory, then whatever name `n` is requested and
whatever the outcome, nothing outside the server directory is changed or created. -/
theorem c20_writer_contained (fs fs' : Fs) (cwd : List Bytes) (cfg : DirCfg) (n name : Bytes) (r : Option (List Bytes))
    (d : List Bytes) (h : fs.WF) (hcwd : fs cwd = some .dir)
    (hdir : canonicalize fs cwd (PPath.parse cfg.directory) = some d) (hd : fs d = some .dir)
    (hl : Spec.NoLinksBelow fs d) (hn : normalizeName n = some name) (hh : serverWriter fs cwd cfg name = (fs', r)) :
    ∀ q, ¬ d <+: q → fs' q = fs q := by
  obtain ⟨a, b, c⟩ := normalized_parse n name hn
  exact c20_writer_contained_names fs fs' cwd cfg name r d h hcwd hdir hd hl a b c hh

/-- **C20**, writing: an absolute name which does not begin with the server directory is refused before anything is touched. -/
theorem c20_absolute_name_no_effect (fs : Fs) (cwd : List Bytes) (cfg : DirCfg) (name : Bytes) (habs : (PPath.parse name).abs = true)
    (hout : ¬ ((PPath.parse cfg.directory).abs = true ∧ (PPath.parse cfg.directory).comps <+: (PPath.parse name).comps)) :
    serverWriter fs cwd cfg name = (fs, none) := by
  have hj : (PPath.parse cfg.directory).join (PPath.parse name) = PPath.parse name := by unfold PPath.join; rw [habs]; rfl
  have hs : (PPath.parse name).startsWith (PPath.parse cfg.directory) = false := by
    unfold PPath.startsWith
    rw [habs]
    cases hd : (PPath.parse cfg.directory).abs
    · rfl
    · have : ¬ (PPath.parse cfg.directory).comps <+: (PPath.parse name).comps := fun h => hout ⟨hd, h⟩
      rw [← List.isPrefixOf_iff_prefix] at this
      simp [this]
  unfold serverWriter
  simp only [hj, hs]
  split <;> rfl

example : (PPath.parse [47, 101, 47, 120]).abs = true ∧
    ¬ ((PPath.parse [47, 115]).abs = true ∧ (PPath.parse [47, 115]).comps <+: (PPath.parse [47, 101, 47, 120]).comps) := by decide

/-! ### Examples -/

/-- A file system given by a list. -/
def fsOf (l : List (List Bytes × Node)) : Fs := fun p => (l.find? fun x => x.1 == p).map (·.2)

theorem fsOf_wf (l : List (List Bytes × Node)) (h0 : fsOf l [] = some .dir)
    (h : l.all (fun x => x.1 = [] ∨ (fsOf l x.1.dropLast = some .dir ∧ x.1.getLast? ≠ some [46] ∧
      x.1.getLast? ≠ some [46, 46])) = true) : (fsOf l).WF := by
  have key : ∀ p c, fsOf l (p ++ [c]) ≠ none → fsOf l p = some .dir ∧ c ≠ [46] ∧ c ≠ [46, 46] := by
    intro p c hp
    have : ∃ n, (p ++ [c], n) ∈ l := by
      unfold fsOf at hp
      cases hf : l.find? (fun x => x.1 == p ++ [c]) with
      | none => rw [hf] at hp; simp at hp
      | some y =>
        have h1 := List.mem_of_find?_eq_some hf
        have h2 := List.find?_some hf
        refine ⟨y.2, ?_⟩
        have : y = (p ++ [c], y.2) := Prod.ext (by simpa using h2) rfl
        rwa [this] at h1
    obtain ⟨n, hn⟩ := this
    have := List.all_eq_true.mp h _ hn
    simpa using this
  exact ⟨h0, fun p c hp => (key p c hp).1, fun p c hp => (key p c hp).2⟩

/-- `/s` with a file, a directory and the link `/s/l -> ../e`; `/e/p` is outside. -/
def demoFs : Fs := fsOf
  [([], .dir), ([[115]], .dir), ([[115], [97]], .file [1]), ([[115], [100]], .dir),
   ([[115], [108]], .link false [[46, 46], [101]]), ([[101]], .dir),
   ([[101], [112]], .file [2])]

theorem demoFs_wf : demoFs.WF := fsOf_wf _ (by decide) (by decide)

/-- Reading `a` is allowed, reading `l/p` through the link is refused. -/
example : serverReader demoFs [] ⟨[47, 115], none, 5, false⟩ [97] = some (.file [[115], [97]]) ∧
    serverReader demoFs [] ⟨[47, 115], none, 5, false⟩ [108, 47, 112] = none := by decide

/-- Overwriting `/s/a` (97) is allowed and empties it; `l/p` is refused and keeps its contents. -/
example : (serverWriter demoFs [] ⟨[47, 115], none, 5, true⟩ [97]).2 = some [[115], [97]] ∧
    (serverWriter demoFs [] ⟨[47, 115], none, 5, true⟩ [97]).1 [[115], [97]] = some (.file []) ∧
    (serverWriter demoFs [] ⟨[47, 115], none, 5, true⟩ [108, 47, 112]).2 = none ∧
    (serverWriter demoFs [] ⟨[47, 115], none, 5, true⟩ [108, 47, 112]).1 [[101], [112]] = some (.file [2]) := by
  decide

/-- A new file in a new directory. -/
example : (serverWriter demoFs [] ⟨[47, 115], none, 5, false⟩ [100, 47, 116, 47, 117]).2 =
    some [[115], [100], [116], [117]] := by decide

/-- Finding: with a link inside the server directory a refused upload still creates directories and an empty file outside
of it (the containment check comes after the creation). Hence the hypothesis of `c20_writer_contained`. -/
theorem c20_refused_upload_creates_outside :
    let y := serverWriter demoFs [] ⟨[47, 115], none, 5, false⟩ [108, 47, 110, 47, 102]
    y.2 = none ∧ demoFs [[101], [110]] = none ∧ y.1 [[101], [110]] = some .dir ∧
      y.1 [[101], [110], [102]] = some (.file []) := by decide

end Tftp

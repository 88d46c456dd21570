import Verif.Listing
/-
C64: uploads which are possible are accepted, and the file is stored where its name says (std-binary/src/io.rs:91-132, `create_server_writer`).
-/
namespace Tftp
open Spec

/-- Specification: on the way from `d` along `r` there are directories, or nothing yet. -/
def Spec.ClearWay (fs : Fs) (d r : List Bytes) : Prop := ∀ a, a <+: r → fs (d ++ a) = none ∨ fs (d ++ a) = some .dir

theorem walk_missing {fs : Fs} {k} (r : List Bytes) (d : List Bytes) (hw : ClearWay fs d r) (hp : PlainNames r) (hn : fs (d ++ r) = none) (hd : fs d = some .dir) :
    walk fs false k d r = none := by
  induction r generalizing d with
  | nil => rw [List.append_nil, hd] at hn; cases hn
  | cons c r ih =>
    have hc := hp c (by simp)
    rw [walk, if_neg hc.1, if_neg hc.2]
    rcases hw [c] ⟨r, rfl⟩ with h | h
    · rw [h]; simp
    · rw [h]
      refine ih (d ++ [c]) ?_ (fun x hx => hp x (by simp [hx])) (by simpa using hn) h
      rintro a ⟨t, rfl⟩
      have := hw (c :: a) ⟨t, rfl⟩
      simpa using this

/-- The server directory `d`, as `dc` from `start`. -/
structure At (fs : Fs) (start dc d : List Bytes) : Prop where
  wf : fs.WF
  res : resolve fs false maxLinks start dc = some d
  dir : fs d = some .dir

theorem At.resolve {fs : Fs} {start dc d : List Bytes} (h : At fs start dc d) (create : Bool) :
    ∃ m, ∀ rest, Tftp.resolve fs create maxLinks start (dc ++ rest) = walk fs create (afterLink fs create m) d rest := by
  obtain ⟨m, -, hm⟩ := resolve_append (create := create) h.dir maxLinks dc start h.res
  exact ⟨m, fun rest => by rw [hm, resolve_eq]⟩

theorem At.real {fs : Fs} {start dc d : List Bytes} (h : At fs start dc d) (create : Bool) {a : List Bytes} (ha : Real fs (d ++ a)) :
    Tftp.resolve fs create maxLinks start (dc ++ a) = some (d ++ a) := by
  obtain ⟨m, hm⟩ := h.resolve create
  rw [hm]
  exact walk_down h.wf d a ha

theorem At.missing {fs : Fs} {start dc d : List Bytes} (h : At fs start dc d) {a : List Bytes} (hw : ClearWay fs d a) (hp : PlainNames a) (ha : fs (d ++ a) = none) :
    Tftp.resolve fs false maxLinks start (dc ++ a) = none := by
  obtain ⟨m, hm⟩ := h.resolve false
  rw [hm]
  exact walk_missing a d hw hp ha h.dir

theorem At.keep {fs fs' : Fs} {start dc d : List Bytes} (h : At fs start dc d) (hw : fs'.WF) (hu : Unchanged fs fs') : At fs' start dc d :=
  ⟨hw, resolve_mono hu.keeps false _ _ _ _ h.res, hu _ _ h.dir⟩

theorem last_of (dc a : List Bytes) (c : Bytes) : (dc ++ (a ++ [c])).getLast? = some c ∧ (dc ++ (a ++ [c])).dropLast = dc ++ a := by
  rw [← List.append_assoc]
  exact ⟨List.getLast?_concat, List.dropLast_concat⟩

theorem mkdir_new {fs : Fs} {start dc d a : List Bytes} {c : Bytes} (h : At fs start dc d) (ha : fs (d ++ a) = some .dir) (hc : c ≠ [46] ∧ c ≠ [46, 46])
    (hn : fs (d ++ a ++ [c]) = none) : mkdir fs start (dc ++ (a ++ [c])) = (fs.set (d ++ a ++ [c]) .dir, .ok) := by
  unfold mkdir
  rw [(last_of dc a c).1]
  simp only
  rw [(last_of dc a c).2, h.real false (.inl ha)]
  simp only
  rw [if_pos ⟨ha, hc.1, hc.2, hn⟩]

theorem mkdir_missing {fs : Fs} {start dc d a : List Bytes} {c : Bytes} (h : At fs start dc d) (hw : ClearWay fs d a) (hp : PlainNames a) (ha : fs (d ++ a) = none) :
    mkdir fs start (dc ++ (a ++ [c])) = (fs, .notFound) := by
  unfold mkdir
  rw [(last_of dc a c).1]
  simp only
  rw [(last_of dc a c).2, h.missing hw hp ha]

/-- `create_dir_all` creates what is missing. -/
theorem createDirAll_below {start dc d r : List Bytes} (hp : PlainNames r) (k : Nat) (hk : k ≤ r.length) (fs : Fs) (h : At fs start dc d) (hw : ClearWay fs d (r.take k))
    (hn : fs (d ++ r.take k) = none) :
    ∃ fs', createDirAll fs start (dc ++ r) (dc.length + k) = (fs', true) ∧ fs' (d ++ r.take k) = some .dir ∧
      ∀ q, (∀ a, a <+: r.take k → q ≠ d ++ a) → fs' q = fs q := by
  induction k with
  | zero => simp only [List.take_zero, List.append_nil, h.dir] at hn; cases hn
  | succ k ih =>
    have hlt : k < r.length := by omega
    have ht : r.take (k + 1) = r.take k ++ [r[k]] := by simp
    have htk : (dc ++ r).take (dc.length + k + 1) = dc ++ (r.take k ++ [r[k]]) := by
      rw [← ht, show dc.length + k + 1 = dc.length + (k + 1) from rfl, List.take_length_add_append]
    have hpk : PlainNames (r.take k) := fun c hc => hp c (List.mem_of_mem_take hc)
    have hck : r[k] ≠ [46] ∧ r[k] ≠ [46, 46] := hp _ (List.getElem_mem _)
    have hwk : ClearWay fs d (r.take k) := fun a ha => hw a (ha.trans (by rw [ht]; exact List.prefix_append _ _))
    rw [ht, ← List.append_assoc] at hn
    show ∃ fs', createDirAll fs start (dc ++ r) (dc.length + k + 1) = (fs', true) ∧ _
    unfold createDirAll
    rw [htk, ht]
    rcases hwk _ (List.prefix_rfl) with ha | ha
    · obtain ⟨fs1, e1, e2, e3⟩ := ih (by omega) hwk ha
      rw [mkdir_missing h hwk hpk ha]
      simp only
      rw [e1]
      simp only
      obtain ⟨w1, u1⟩ := createDirAll_spec h.wf e1
      have hn1 : fs1 (d ++ r.take k ++ [r[k]]) = none := by
        rw [e3 _ ?_]
        · exact hn
        · intro a hpre e
          have hl := congrArg List.length e
          have := hpre.length_le
          simp only [List.length_append, List.length_singleton] at hl
          omega
      rw [mkdir_new (h.keep w1 u1) e2 hck hn1]
      refine ⟨_, rfl, by rw [← List.append_assoc, Fs.set_eq], fun q hq => ?_⟩
      rw [Fs.set_ne _ _ (by rw [List.append_assoc]; exact hq _ (List.prefix_rfl))]
      exact e3 q fun a ha => hq a (ha.trans (List.prefix_append _ _))
    · rw [mkdir_new h ha hck hn]
      refine ⟨_, rfl, by rw [← List.append_assoc, Fs.set_eq], fun q hq => ?_⟩
      rw [Fs.set_ne _ _ (by rw [List.append_assoc]; exact hq _ (List.prefix_rfl))]

/-- **C64**: an upload is accepted if the name's depth is allowed, nothing but directories is on the way, and the file does not exist or is an
existing file which may be overwritten. Then the file is stored below the server directory exactly where the name says. (That it is then empty, that
nothing else is changed: C20.) -/
theorem c64_upload_accepted (fs : Fs) (cwd : List Bytes) (cfg : DirCfg) (name : Bytes) (d r : List Bytes) (c : Bytes) (h : fs.WF)
    (hd : canonicalize fs cwd (PPath.parse cfg.directory) = some d) (hdd : fs d = some .dir)
    (hname : PPath.parse name = ⟨false, r ++ [c]⟩) (hp : PlainNames (r ++ [c])) (hdepth : r.length ≤ cfg.maxDepth)
    (hway : ClearWay fs d r) (hfree : fs (d ++ r ++ [c]) = none ∨ cfg.overwrite = true ∧ ∃ x, fs (d ++ r ++ [c]) = some (.file x)) :
    (serverWriter fs cwd cfg name).2 = some (d ++ r ++ [c]) := by
  let dir := PPath.parse cfg.directory
  have hjoin : dir.join (PPath.parse name) = ⟨dir.abs, dir.comps ++ (r ++ [c])⟩ := by rw [hname]; rfl
  have hat : At fs (if dir.abs then [] else cwd) dir.comps d := ⟨h, hd, hdd⟩
  have hpr : PlainNames r := fun x hx => hp x (by simp [hx])
  have hpc : c ≠ [46] ∧ c ≠ [46, 46] := hp c (by simp)
  have hparent : (⟨dir.abs, dir.comps ++ (r ++ [c])⟩ : PPath).parent = some ⟨dir.abs, dir.comps ++ r⟩ := by
    unfold PPath.parent
    rw [if_neg (by simp)]
    simp only [(last_of dir.comps r c).2]
  have hstarts : (⟨dir.abs, dir.comps ++ (r ++ [c])⟩ : PPath).startsWith dir = true := by
    simp [PPath.startsWith]
  -- the directory of the file
  have hpar : ∃ fs1, (if isDir fs cwd ⟨dir.abs, dir.comps ++ r⟩ then (fs, true)
      else createDirAll fs (if dir.abs then [] else cwd) (dir.comps ++ r) (dir.comps ++ r).length) = (fs1, true) ∧
      fs1 (d ++ r) = some .dir ∧ fs1 (d ++ r ++ [c]) = fs (d ++ r ++ [c]) ∧ At fs1 (if dir.abs then [] else cwd) dir.comps d := by
    rcases hway r (List.prefix_rfl) with hr | hr
    · have : isDir fs cwd ⟨dir.abs, dir.comps ++ r⟩ = false := by
        unfold isDir canonicalize
        rw [hat.missing hway hpr hr]
      rw [this]
      have := createDirAll_below (start := if dir.abs then [] else cwd) (dc := dir.comps) (d := d) hpr r.length (Nat.le_refl _) fs hat (by rw [List.take_length]; exact hway)
        (by rw [List.take_length]; exact hr)
      rw [List.take_length] at this
      obtain ⟨fs1, e1, e2, e3⟩ := this
      rw [List.length_append]
      refine ⟨fs1, e1, e2, e3 _ ?_, ?_⟩
      · intro a hpre e
        have hl := congrArg List.length e
        have := hpre.length_le
        simp only [List.length_append, List.length_singleton] at hl
        omega
      · obtain ⟨w, u⟩ := createDirAll_spec h e1
        exact hat.keep w u
    · have : isDir fs cwd ⟨dir.abs, dir.comps ++ r⟩ = true := by
        unfold isDir canonicalize
        rw [hat.real false (.inl hr)]
        simp [hr]
      rw [this]
      exact ⟨fs, rfl, hr, rfl, hat⟩
  obtain ⟨fs1, hp1, hdir1, hfile1, hat1⟩ := hpar
  unfold serverWriter
  simp only [show (PPath.parse cfg.directory) = dir from rfl, hjoin, hparent]
  rw [if_pos (by simpa [validatePath, hname] using hdepth), if_pos hstarts, hp1]
  simp only
  -- the file is opened
  have hopen : ∃ fs2, (if cfg.overwrite then openCreate fs1 (if dir.abs then [] else cwd) (dir.comps ++ (r ++ [c]))
      else openNew fs1 (if dir.abs then [] else cwd) (dir.comps ++ (r ++ [c]))) = (fs2, some (d ++ r ++ [c])) ∧
      At fs2 (if dir.abs then [] else cwd) dir.comps d ∧ ∃ x, fs2 (d ++ r ++ [c]) = some (.file x) := by
    have hnew : fs1 (d ++ r ++ [c]) = none → At (fs1.set (d ++ r ++ [c]) (.file [])) (if dir.abs then [] else cwd) dir.comps d := fun hn =>
      hat1.keep (hat1.wf.set_new _ hdir1 hpc.1 hpc.2 hn) (unchanged_set _ hn)
    cases ho : cfg.overwrite with
    | false =>
      rcases hfree with hf | ⟨hf, -⟩
      · rw [← hfile1] at hf
        refine ⟨_, ?_, hnew hf, ⟨[], Fs.set_eq _ _ _⟩⟩
        simp only [Bool.false_eq_true, if_false]
        unfold openNew
        rw [(last_of dir.comps r c).1]
        simp only
        rw [(last_of dir.comps r c).2, hat1.real false (.inl hdir1)]
        simp only
        rw [if_pos ⟨hdir1, hpc.1, hpc.2, hf⟩]
      · rw [ho] at hf; cases hf
    | true =>
      simp only [if_true]
      unfold openCreate
      rcases hfree with hf | ⟨-, x, hf⟩
      · rw [← hfile1] at hf
        have hres : resolve fs1 true maxLinks (if dir.abs then [] else cwd) (dir.comps ++ (r ++ [c])) = some (d ++ r ++ [c]) := by
          obtain ⟨m, hm⟩ := resolve_append (create := true) hdir1 maxLinks (dir.comps ++ r) _ (hat1.real false (.inl hdir1))
          rw [← List.append_assoc, hm.2, resolve_eq, walk, if_neg hpc.1, if_neg hpc.2, hf]
          simp
        rw [hres]
        simp only [hf]
        exact ⟨_, rfl, hnew hf, ⟨[], Fs.set_eq _ _ _⟩⟩
      · rw [← hfile1] at hf
        rw [hat1.real true (.inr ⟨x, by rw [← List.append_assoc]; exact hf⟩), ← List.append_assoc]
        simp only [hf]
        exact ⟨_, rfl, hat1, ⟨x, hf⟩⟩
  obtain ⟨fs2, ho, hat2, x, hx⟩ := hopen
  rw [ho]
  simp only
  have hc1 : canonicalize fs2 cwd dir = some d := hat2.res
  have hc2 : canonicalize fs2 cwd ⟨dir.abs, dir.comps ++ (r ++ [c])⟩ = some (d ++ r ++ [c]) := by
    unfold canonicalize
    rw [hat2.real false (.inr ⟨x, by rw [← List.append_assoc]; exact hx⟩), List.append_assoc]
  rw [hc1, hc2]
  simp only
  rw [if_pos (by simp)]
  split
  · unfold openTruncate openCreate
    have : resolve fs2 true maxLinks [] (d ++ r ++ [c]) = some (d ++ r ++ [c]) := by
      rw [resolve_eq]
      exact walk_down hat2.wf [] _ (.inr ⟨x, hx⟩)
    rw [this]
    simp only [hx]
  · rfl

/-- A file in the way stops the walk. -/
theorem walk_blocked {fs : Fs} (h : fs.WF) {create : Bool} {k} (a : List Bytes) (d : List Bytes) (x : Bytes) (b : List Bytes) (hb : b ≠ []) (ha : a ≠ []) (hx : fs (d ++ a) = some (.file x)) :
    walk fs create k d (a ++ b) = none := by
  induction a generalizing d with
  | nil => exact absurd rfl ha
  | cons c a ih =>
    have hne : fs (d ++ [c]) ≠ none := by
      cases a with
      | nil => rw [hx]; simp
      | cons y a => rw [h.above (d ++ [c]) y a (by rw [show d ++ [c] ++ y :: a = d ++ c :: y :: a by simp, hx]; simp)]; simp
    have hn := h.names d c hne
    rw [List.cons_append, walk, if_neg hn.1, if_neg hn.2]
    cases a with
    | nil => rw [hx]; simp [hb]
    | cons y a =>
      have hd : fs (d ++ [c]) = some .dir := h.above (d ++ [c]) y a (by rw [show d ++ [c] ++ y :: a = d ++ c :: y :: a by simp, hx]; simp)
      rw [hd]
      exact ih (d ++ [c]) (by simp) (by simpa using hx)

/-- **C64**, exactly: in a server directory without symbolic links an upload is refused only for these reasons. -/
theorem c64_upload_accepted_iff (fs : Fs) (cwd : List Bytes) (cfg : DirCfg) (name : Bytes) (d r : List Bytes) (c : Bytes) (h : fs.WF) (hcwd : fs cwd = some .dir)
    (hd : canonicalize fs cwd (PPath.parse cfg.directory) = some d) (hdd : fs d = some .dir) (hl : NoLinksBelow fs d)
    (hname : PPath.parse name = ⟨false, r ++ [c]⟩) (hp : PlainNames (r ++ [c])) :
    (serverWriter fs cwd cfg name).2 ≠ none ↔ r.length ≤ cfg.maxDepth ∧ ClearWay fs d r ∧
      (fs (d ++ r ++ [c]) = none ∨ cfg.overwrite = true ∧ ∃ x, fs (d ++ r ++ [c]) = some (.file x)) := by
  refine ⟨fun hne => ?_, fun ⟨h1, h2, h3⟩ => by rw [c64_upload_accepted fs cwd cfg name d r c h hd hdd hname hp h1 h2 h3]; simp⟩
  obtain ⟨p, hsome⟩ := Option.ne_none_iff_exists'.mp hne
  have hs : serverWriter fs cwd cfg name = ((serverWriter fs cwd cfg name).1, some p) := by rw [← hsome]
  generalize (serverWriter fs cwd cfg name).1 = fs' at hs
  obtain ⟨hw', hkeep, hres⟩ := c20_writer fs fs' cwd cfg name (some p) h hcwd hs
  obtain ⟨hfile, -, hcan, hdepth, hnew, -⟩ := hres p rfl
  have hk : Keeps fs fs' := writer_keeps h hcwd hs
  have hat : At fs' (if (PPath.parse cfg.directory).abs then [] else cwd) (PPath.parse cfg.directory).comps d :=
    ⟨hw', resolve_mono hk false _ _ _ _ hd, hk.dir _ hdd⟩
  obtain ⟨m, hm⟩ := hat.resolve false
  have hwalk : walk fs' false (afterLink fs' false m) d (r ++ [c]) = some p := by
    rw [← hm, ← hcan, hname]
    rfl
  rw [hname] at hdepth
  simp only [List.length_append, List.length_singleton] at hdepth
  refine ⟨by omega, ?_, ?_⟩
  · rintro a ⟨b, rfl⟩
    cases hn : fs (d ++ a) with
    | none => exact .inl rfl
    | some n =>
      cases n with
      | dir => exact .inr rfl
      | link t u => exact absurd hn (hl _ t u (List.prefix_append _ _))
      | file x =>
        exfalso
        obtain ⟨x', hx'⟩ := hk.file _ _ hn
        have ha : a ≠ [] := by
          rintro rfl
          rw [List.append_nil, hdd] at hn
          cases hn
        rw [List.append_assoc, walk_blocked hw' a d x' _ (by simp) ha hx'] at hwalk
        cases hwalk
  · cases hn : fs (d ++ r ++ [c]) with
    | none => exact .inl rfl
    | some n =>
      cases n with
      | link t u => exact absurd hn (hl _ t u (by rw [List.append_assoc]; exact List.prefix_append _ _))
      | dir =>
        exfalso
        have := hk.dir _ hn
        rw [List.append_assoc] at this
        rw [walk_down hw' d _ (.inl this)] at hwalk
        cases hwalk
        rw [this] at hfile
        cases hfile
      | file x =>
        right
        obtain ⟨x', hx'⟩ := hk.file _ _ hn
        rw [List.append_assoc] at hx'
        rw [walk_down hw' d _ (.inr ⟨x', hx'⟩)] at hwalk
        cases hwalk
        refine ⟨?_, x, rfl⟩
        cases ho : cfg.overwrite with
        | true => rfl
        | false =>
          have := hnew ho
          rw [← List.append_assoc, hn] at this
          cases this

/-- **C64** with **C19**: what a client asks to store as `a/b/c` is stored as `a/b/c` below the server directory. -/
theorem c64_stored_as_named (fs : Fs) (cwd : List Bytes) (cfg : DirCfg) (d r : List Bytes) (c : Bytes) (h : fs.WF)
    (hd : canonicalize fs cwd (PPath.parse cfg.directory) = some d) (hdd : fs d = some .dir)
    (hs : ∀ x ∈ r ++ [c], (47 : UInt8) ∉ x) (hk : ∀ x ∈ r ++ [c], Kept x) (hdepth : r.length ≤ cfg.maxDepth)
    (hway : ClearWay fs d r) (hfree : fs (d ++ r ++ [c]) = none ∨ cfg.overwrite = true ∧ ∃ x, fs (d ++ r ++ [c]) = some (.file x)) :
    ∃ name, normalizeName (pathOf (r ++ [c])) = some name ∧ (serverWriter fs cwd cfg name).2 = some (d ++ r ++ [c]) := by
  obtain ⟨h1, h2⟩ := normalize_kept (cs := r ++ [c]) (by simp) hs hk
  refine ⟨_, h1, c64_upload_accepted fs cwd cfg _ d r c h hd hdd h2 (fun x hx => ?_) hdepth hway hfree⟩
  have := kept_usable (hk x hx) (hs x hx)
  exact ⟨(usable_spec this).2.1, (usable_spec this).2.2⟩

/-! ### Examples -/

theorem clearWay_of {l : List (List Bytes × Node)} {d r : List Bytes}
    (h : (List.range (r.length + 1)).all (fun k => decide (fsOf l (d ++ r.take k) = none ∨ fsOf l (d ++ r.take k) = some .dir)) = true) : ClearWay (fsOf l) d r := by
  intro a ha
  obtain ⟨t, rfl⟩ := ha
  have := List.all_eq_true.mp h a.length (by simp; omega)
  simpa using this

/-- `new/sub/f` is stored at `/s/new/sub/f`; neither directory exists before. -/
example : ∃ name, normalizeName (ascii "new/sub/f") = some name ∧
    (serverWriter demoFs [] ⟨[47, 115], none, 5, false⟩ name).2 = some [[115], ascii "new", ascii "sub", ascii "f"] := by
  have h := c64_stored_as_named demoFs [] ⟨[47, 115], none, 5, false⟩ [[115]] [ascii "new", ascii "sub"] (ascii "f") demoFs_wf (by decide) (by decide) (by decide) ?_ (by decide)
    (clearWay_of (by decide)) (.inl (by decide))
  · exact h
  · intro x hx
    have : x = ascii "new" ∨ x = ascii "sub" ∨ x = ascii "f" := by simpa using hx
    rcases this with rfl | rfl | rfl <;> exact kept_of (trim_id rfl rfl) (by decide) (by decide) (by decide)

/-- An existing file is in the way: `a/x` is refused since `/s/a` is a file. -/
example : (serverWriter demoFs [] ⟨[47, 115], none, 5, true⟩ (ascii "a/x")).2 = none := by decide

end Tftp

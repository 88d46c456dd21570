import Verif.Fs
/-
C55: what becomes of stored files. All uploads of a server on one file system: the files are opened by `serverWriter`
(std-binary/src/io.rs:91-132), each connection then writes through its own handle (src/writers/single_block_writer.rs:31-77, std
`File::write`). Files are never removed, renamed or truncated otherwise (no such call in /repo/src and /repo/std-binary/src).
-/
namespace Tftp

/-- An open file: its location and the handle's position; `wrote` is a ghost field, all bytes written through the handle. -/
structure Handle where
  loc : List Bytes
  pos : Nat
  wrote : Bytes

structure Disk where
  fs : Fs
  handles : List Handle

inductive DiskEv
  /-- a request to store a file is accepted so far that the file is opened -/
  | upload (name : Bytes)
  /-- the `i`-th opened file is written to -/
  | write (i : Nat) (data : Bytes)
deriving DecidableEq

/-- `write(2)` at a position: overwrites, and fills a gap with zeros. -/
def overlay (d : Bytes) (pos : Nat) (data : Bytes) : Bytes :=
  (d ++ List.replicate (pos - d.length) 0).take pos ++ data ++ d.drop (pos + data.length)

/-- One event. std-binary/src/io.rs:91-132 and `File::write`. -/
def Disk.step (cwd : List Bytes) (cfg : DirCfg) (s : Disk) : DiskEv → Disk
  | .upload name => match serverWriter s.fs cwd cfg name with
    | (fs, some p) => ⟨fs, s.handles ++ [⟨p, 0, []⟩]⟩
    | (fs, none) => ⟨fs, s.handles⟩
  | .write i data => match s.handles[i]? with
    | none => s
    | some h => match s.fs h.loc with
      | some (.file d) => ⟨s.fs.set h.loc (.file (overlay d h.pos data)), s.handles.set i ⟨h.loc, h.pos + data.length, h.wrote ++ data⟩⟩
      | _ => s

def Disk.run (cwd : List Bytes) (cfg : DirCfg) (s : Disk) (es : List DiskEv) : Disk := es.foldl (Disk.step cwd cfg) s

theorem overlay_end (d data : Bytes) : overlay d d.length data = d ++ data := by
  simp [overlay]

/-- Each handle has its own file, which holds what was written through the handle; the files of `fs0` are as they were. -/
structure DiskInv (cwd : List Bytes) (fs0 : Fs) (s : Disk) : Prop where
  wf : s.fs.WF
  cwd : s.fs cwd = some .dir
  old : ∀ q n, fs0 q = some n → s.fs q = some n ∧ ∀ h ∈ s.handles, h.loc ≠ q
  holds : ∀ h ∈ s.handles, s.fs h.loc = some (.file h.wrote) ∧ h.pos = h.wrote.length
  own : ∀ (i j : Nat) (a b : Handle), s.handles[i]? = some a → s.handles[j]? = some b → a.loc = b.loc → i = j

theorem DiskInv.step {cwd : List Bytes} {cfg : DirCfg} (hno : cfg.overwrite = false) {fs0 : Fs} {s : Disk} (h : DiskInv cwd fs0 s) (e : DiskEv) :
    DiskInv cwd fs0 (s.step cwd cfg e) := by
  cases e with
  | upload name =>
    obtain ⟨fs', r, hw⟩ : ∃ fs' r, serverWriter s.fs cwd cfg name = (fs', r) := ⟨_, _, rfl⟩
    obtain ⟨h1, h2, h3⟩ := c20_writer s.fs fs' cwd cfg name r h.wf h.cwd hw
    simp only [Disk.step, hw]
    have keep : ∀ q n, s.fs q = some n → fs' q = some n := by
      intro q n hq
      refine h2 q n hq ?_
      intro hr
      rw [(h3 q hr).2.2.2.2.1 hno] at hq
      cases hq
    cases r with
    | none =>
      exact ⟨h1, keep _ _ h.cwd, fun q n hq => ⟨keep _ _ (h.old q n hq).1, (h.old q n hq).2⟩,
        fun x hx => ⟨keep _ _ (h.holds x hx).1, (h.holds x hx).2⟩, h.own⟩
    | some p =>
      obtain ⟨p1, -, -, -, p2, -⟩ := h3 p rfl
      have p2 := p2 hno
      have fresh : ∀ x ∈ s.handles, x.loc ≠ p := by
        intro x hx hp
        have := (h.holds x hx).1
        rw [hp, p2] at this
        cases this
      refine ⟨h1, keep _ _ h.cwd, fun q n hq => ⟨keep _ _ (h.old q n hq).1, ?_⟩, ?_, ?_⟩
      · intro x hx
        rcases List.mem_append.mp hx with hx | hx
        · exact (h.old q n hq).2 x hx
        · simp only [List.mem_singleton] at hx
          subst hx
          intro hp
          have := (h.old q n hq).1
          rw [← hp, p2] at this
          cases this
      · intro x hx
        rcases List.mem_append.mp hx with hx | hx
        · exact ⟨keep _ _ (h.holds x hx).1, (h.holds x hx).2⟩
        · simp only [List.mem_singleton] at hx
          subst hx
          exact ⟨p1, rfl⟩
      · intro i j a b ha hb hab
        rw [List.getElem?_append] at ha hb
        split at ha <;> split at hb
        · exact h.own i j a b ha hb hab
        · rw [List.getElem?_eq_some_iff] at hb
          obtain ⟨_, hb⟩ := hb
          simp only [List.getElem_singleton] at hb
          subst hb
          exact absurd hab (fresh a (List.mem_of_getElem? ha))
        · rw [List.getElem?_eq_some_iff] at ha
          obtain ⟨_, ha⟩ := ha
          simp only [List.getElem_singleton] at ha
          subst ha
          exact absurd hab.symm (fresh b (List.mem_of_getElem? hb))
        · rw [List.getElem?_eq_some_iff] at ha hb
          obtain ⟨ha, -⟩ := ha
          obtain ⟨hb, -⟩ := hb
          simp only [List.length_singleton] at ha hb
          omega
  | write i data =>
    simp only [Disk.step]
    split
    · exact h
    · rename_i x hx
      have hm := List.mem_of_getElem? hx
      obtain ⟨hf, hp⟩ := h.holds x hm
      rw [hf]
      simp only
      rw [hp, overlay_end]
      have other : ∀ q n, q ≠ x.loc → s.fs q = some n → s.fs.set x.loc (.file (x.wrote ++ data)) q = some n := by
        intro q n hq h
        rw [Fs.set_ne _ _ hq]; exact h
      have locs : ∀ (j : Nat) (b : Handle), (s.handles.set i ⟨x.loc, x.wrote.length + data.length, x.wrote ++ data⟩)[j]? = some b →
          ∃ c, s.handles[j]? = some c ∧ c.loc = b.loc ∧ (j = i ∧ b = ⟨x.loc, x.wrote.length + data.length, x.wrote ++ data⟩ ∨ j ≠ i ∧ b = c) := by
        intro j b hb
        rw [List.getElem?_set] at hb
        split at hb
        · rename_i hij
          split at hb
          · simp only [Option.some.injEq] at hb
            subst hb; subst hij
            exact ⟨x, hx, rfl, .inl ⟨rfl, rfl⟩⟩
          · cases hb
        · rename_i hij
          exact ⟨b, hb, rfl, .inr ⟨fun h => hij h.symm, rfl⟩⟩
      refine ⟨h.wf.set_file _ hf, ?_, ?_, ?_, ?_⟩
      · refine other _ _ ?_ h.cwd
        intro hc
        have := h.cwd
        rw [hc, hf] at this
        cases this
      · intro q n hq
        obtain ⟨o1, o2⟩ := h.old q n hq
        refine ⟨other _ _ (fun e => o2 x hm e.symm) o1, ?_⟩
        intro y hy
        obtain ⟨j, hj⟩ := List.mem_iff_getElem?.mp hy
        obtain ⟨c, hc, hl, -⟩ := locs j y hj
        rw [← hl]
        exact o2 c (List.mem_of_getElem? hc)
      · intro y hy
        obtain ⟨j, hj⟩ := List.mem_iff_getElem?.mp hy
        obtain ⟨c, hc, hl, hor⟩ := locs j y hj
        rcases hor with ⟨-, rfl⟩ | ⟨hne, rfl⟩
        · exact ⟨Fs.set_eq _ _ _, by simp⟩
        · obtain ⟨a1, a2⟩ := h.holds y (List.mem_of_getElem? hc)
          exact ⟨other _ _ (fun e => hne (h.own j i y x hc hx e)) a1, a2⟩
      · intro j k a b ha hb hab
        obtain ⟨a', ha', hla, -⟩ := locs j a ha
        obtain ⟨b', hb', hlb, -⟩ := locs k b hb
        exact h.own j k a' b' ha' hb' (by rw [hla, hlb, hab])

theorem DiskInv.run {cwd : List Bytes} {cfg : DirCfg} (hno : cfg.overwrite = false) {fs0 : Fs} {s : Disk} (h : DiskInv cwd fs0 s) (es : List DiskEv) :
    DiskInv cwd fs0 (s.run cwd cfg es) := by
  induction es generalizing s with
  | nil => exact h
  | cons e r ih => exact ih (h.step hno e)

theorem DiskInv.init {cwd : List Bytes} {fs0 : Fs} (h : fs0.WF) (hc : fs0 cwd = some .dir) : DiskInv cwd fs0 ⟨fs0, []⟩ :=
  ⟨h, hc, fun _ _ hq => ⟨hq, (fun _ hx => nomatch hx)⟩, (fun _ hx => nomatch hx), fun _ _ _ _ ha => by simp at ha⟩

/-- **C55**, without `allow_overwrite`: whatever requests arrive (repetitions of earlier ones included) and however the connections'
writes interleave, every file which existed before is unchanged, and every stored file holds exactly the bytes its own connection has
written, in their order. -/
theorem c55_own_bytes_partial (cwd : List Bytes) (cfg : DirCfg) (fs0 : Fs) (hno : cfg.overwrite = false) (h : fs0.WF) (hc : fs0 cwd = some .dir)
    (es : List DiskEv) :
    (∀ q n, fs0 q = some n → (Disk.run cwd cfg ⟨fs0, []⟩ es).fs q = some n) ∧
    ∀ x ∈ (Disk.run cwd cfg ⟨fs0, []⟩ es).handles, (Disk.run cwd cfg ⟨fs0, []⟩ es).fs x.loc = some (.file x.wrote) := by
  have := (DiskInv.init h hc).run hno es
  exact ⟨fun q n hq => (this.old q n hq).1, fun x hx => (this.holds x hx).1⟩

theorem run_keeps_handle {cwd : List Bytes} {cfg : DirCfg} {s : Disk} {i : Nat} {x : Handle} (hx : s.handles[i]? = some x) (es : List DiskEv)
    (he : ∀ data, DiskEv.write i data ∉ es) : (s.run cwd cfg es).handles[i]? = some x := by
  induction es generalizing s with
  | nil => exact hx
  | cons e r ih =>
    refine ih ?_ fun data hd => he data (by simp [hd])
    cases e with
    | upload name =>
      simp only [Disk.step]
      split
      · rw [List.getElem?_append_left (by rw [List.getElem?_eq_some_iff] at hx; exact hx.1)]
        exact hx
      · exact hx
    | write j data =>
      have hji : j ≠ i := fun h => he data (by rw [h]; simp)
      simp only [Disk.step]
      split
      · exact hx
      · split
        · rw [List.getElem?_set, if_neg hji]; exact hx
        · exact hx

/-- **C55**, without `allow_overwrite`: a file which has been stored stays as it is, whatever requests arrive and whatever other
connections write later (nothing is written through its own handle any more, since its connection has ended). -/
theorem c55_stored_file_kept_partial (cwd : List Bytes) (cfg : DirCfg) (fs0 : Fs) (hno : cfg.overwrite = false) (h : fs0.WF)
    (hc : fs0 cwd = some .dir) (before after : List DiskEv) (i : Nat) (x : Handle)
    (hx : (Disk.run cwd cfg ⟨fs0, []⟩ before).handles[i]? = some x) (hend : ∀ data, DiskEv.write i data ∉ after) :
    (Disk.run cwd cfg ⟨fs0, []⟩ before).fs x.loc = some (.file x.wrote) ∧
    (Disk.run cwd cfg ⟨fs0, []⟩ (before ++ after)).fs x.loc = some (.file x.wrote) := by
  refine ⟨(c55_own_bytes_partial cwd cfg fs0 hno h hc before).2 x (List.mem_of_getElem? hx), ?_⟩
  refine (c55_own_bytes_partial cwd cfg fs0 hno h hc (before ++ after)).2 x (List.mem_of_getElem? (i := i) ?_)
  rw [Disk.run, List.foldl_append]
  exact run_keeps_handle hx after hend

/-- Two uploads, to `/s/n` and `/s/d/m`, with interleaved writes, then a repetition of the first request, which is refused. -/
def uploads : List DiskEv := [.upload [110], .write 0 [1, 2], .upload [100, 47, 109], .write 1 [9], .write 0 [3]]

example : ((demoFs.WF ∧ demoFs [] = some .dir) ∧
    (Disk.run [] ⟨[47, 115], none, 5, false⟩ ⟨demoFs, []⟩ uploads).handles.map (fun x => (x.loc, x.wrote)) =
      [([[115], [110]], [1, 2, 3]), ([[115], [100], [109]], [9])]) ∧
    (Disk.run [] ⟨[47, 115], none, 5, false⟩ ⟨demoFs, []⟩ (uploads ++ [.upload [110], .write 1 [8], .write 2 [7]])).fs [[115], [110]] =
      some (.file [1, 2, 3]) :=
  ⟨⟨⟨demoFs_wf, by decide⟩, by decide⟩, by decide⟩

/-- **C55**, finding: with `allow_overwrite` a repetition of the request empties the stored file. -/
theorem c55_repeated_request_truncates :
    (Disk.run [] ⟨[47, 115], none, 5, true⟩ ⟨demoFs, []⟩ [.upload [110], .write 0 [1, 2, 3]]).fs [[115], [110]] = some (.file [1, 2, 3]) ∧
    (Disk.run [] ⟨[47, 115], none, 5, true⟩ ⟨demoFs, []⟩ [.upload [110], .write 0 [1, 2, 3], .upload [110]]).fs [[115], [110]] = some (.file []) := by
  decide

/-- **C55**, finding: with `allow_overwrite` two uploads of the same name at a time mix their contents in one file; both succeed. -/
theorem c55_concurrent_uploads_mix :
    (Disk.run [] ⟨[47, 115], none, 5, true⟩ ⟨demoFs, []⟩
      [.upload [110], .upload [110], .write 0 [1, 1], .write 1 [2], .write 0 [1, 1], .write 1 [2]]).fs [[115], [110]] = some (.file [2, 2, 1, 1]) := by
  decide

end Tftp

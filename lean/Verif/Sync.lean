import Verif.Accept
import Verif.Blocking
/-
C62: `sync`, which sends the files of a directory as they are written (std-binary/src/sync.rs).

Paths are given by their components; they are absolute (the watched directory is canonical, sync.rs:42). `lossy`: std `Path::to_string_lossy`.
-/
namespace Tftp

/-- The events of the file system watcher which `start_sync` (std-binary/src/sync.rs:52-131) distinguishes, each with its paths. -/
inductive SyncEv
  | created (paths : List (List Bytes))
  | closed (paths : List (List Bytes))
  | other
deriving DecidableEq

/-- A started transfer: `start_send` (std-binary/src/sync.rs:68-81, 116-127). `finished`: the flag shared with the reader; `none` if the file is read without flag. -/
structure Sending where
  file : Bytes
  remote : Bytes
  finished : Option Bool
deriving DecidableEq

/-- The loop's state (std-binary/src/sync.rs:50): `pending` is the hash map from local paths to flags, here to the number of the transfer. -/
structure SyncSt where
  started : List Sending
  pending : List (Bytes × Nat)

/-- std-binary/src/sync.rs:135-152 `get_paths`. -/
def getPaths (lossy : Bytes → Bytes) (dir : List Bytes) (paths : List (List Bytes)) : Option (Bytes × Bytes) := do
  let p ← paths.head?
  let r ← stripPrefix dir p
  return (lossy (47 :: Spec.pathOf p), lossy (Spec.pathOf r))

/-- `HashMap::remove`, the rest. -/
def dropKey (m : List (Bytes × Nat)) (k : Bytes) : List (Bytes × Nat) := m.filter fun x => x.1 ≠ k

/-- std-binary/src/sync.rs:52-131: one event. -/
def SyncSt.step (lossy : Bytes → Bytes) (dir : List Bytes) (onCreate : Bool) (s : SyncSt) (e : SyncEv) : SyncSt :=
  match e, onCreate with
  | .created ps, true => match getPaths lossy dir ps with
    | none => s
    | some (l, r) => ⟨s.started ++ [⟨l, r, some false⟩], (l, s.started.length) :: dropKey s.pending l⟩
  | .closed ps, true => match getPaths lossy dir ps with
    | none => s
    | some (l, _) => match s.pending.lookup l with
      | none => s
      | some i => ⟨s.started.modify i fun x => { x with finished := some true }, dropKey s.pending l⟩
  | .closed ps, false => match getPaths lossy dir ps with
    | none => s
    | some (l, r) => ⟨s.started ++ [⟨l, r, none⟩], s.pending⟩
  | _, _ => s

/-- The transfers after some events. -/
def syncRun (lossy : Bytes → Bytes) (dir : List Bytes) (onCreate : Bool) (es : List SyncEv) : SyncSt :=
  es.foldl (SyncSt.step lossy dir onCreate) ⟨[], []⟩

/-! ### Specification -/

namespace Spec

/-- `p` is below `dir`, with relative path `r`. -/
def Below (dir p r : List Bytes) : Prop := p = dir ++ r

/-- What the first of the events which is about the file with text `l` says: was it closed? -/
def closedNext (lossy : Bytes → Bytes) (dir : List Bytes) (l : Bytes) : List SyncEv → Bool
  | [] => false
  | .created (p :: _) :: es => if dir <+: p ∧ lossy (47 :: pathOf p) = l then false else closedNext lossy dir l es
  | .closed (p :: _) :: es => if dir <+: p ∧ lossy (47 :: pathOf p) = l then true else closedNext lossy dir l es
  | _ :: es => closedNext lossy dir l es

end Spec

open Spec

/-! ### Proofs -/

theorem getPaths_some {lossy : Bytes → Bytes} {dir : List Bytes} {ps : List (List Bytes)} {l r : Bytes} :
    getPaths lossy dir ps = some (l, r) ↔ ∃ p q, ps.head? = some p ∧ Below dir p q ∧ l = lossy (47 :: pathOf p) ∧ r = lossy (pathOf q) := by
  unfold getPaths stripPrefix Below
  constructor
  · intro h
    cases hp : ps.head? with
    | none => simp [hp] at h
    | some p =>
      rw [hp] at h
      simp only [Option.bind_eq_bind, Option.bind_some] at h
      split at h
      · rename_i hd
        simp only [Option.bind_some, Option.some.injEq, Prod.mk.injEq, pure] at h
        obtain ⟨t, ht⟩ := List.isPrefixOf_iff_prefix.mp hd
        exact ⟨p, p.drop dir.length, rfl, by rw [← ht]; simp, h.1.symm, h.2.symm⟩
      · simp at h
  · rintro ⟨p, q, hp, rfl, rfl, rfl⟩
    simp [hp]

theorem getPaths_local {lossy : Bytes → Bytes} {dir : List Bytes} {p : List Bytes} {ps : List (List Bytes)} :
    (getPaths lossy dir (p :: ps)).map (·.1) = if dir <+: p then some (lossy (47 :: pathOf p)) else none := by
  unfold getPaths stripPrefix
  by_cases h : dir <+: p
  · simp [h]
  · simp [h]

theorem lookup_dropKey (m : List (Bytes × Nat)) (k l : Bytes) : (dropKey m k).lookup l = if l = k then none else m.lookup l := by
  induction m with
  | nil => simp [dropKey]
  | cons x m ih =>
    unfold dropKey at *
    by_cases hx : x.1 = k
    · rw [List.filter_cons_of_neg (by simp [hx]), ih, List.lookup_cons]
      split
      · rfl
      · rename_i hl
        have : (l == x.1) = false := by rw [hx]; simpa using hl
        rw [this]
    · rw [List.filter_cons_of_pos (by simp [hx]), List.lookup_cons, List.lookup_cons, ih]
      by_cases hlx : l = x.1
      · subst hlx; simp [hx]
      · have : (l == x.1) = false := by simp [hlx]
        simp [this]

/-- Invariant: the numbers in the map are those of transfers of that very file which are not told yet, each once. -/
structure SyncInv (s : SyncSt) : Prop where
  range : ∀ l i, s.pending.lookup l = some i → ∃ x, s.started[i]? = some x ∧ x.file = l

theorem syncInv_step {lossy : Bytes → Bytes} {dir : List Bytes} {onCreate : Bool} {s : SyncSt} (h : SyncInv s) (e : SyncEv) :
    SyncInv (s.step lossy dir onCreate e) := by
  unfold SyncSt.step
  split
  · split
    · exact h
    · rename_i l r _
      refine ⟨fun l' i hl => ?_⟩
      simp only [List.lookup_cons] at hl
      split at hl
      · rename_i he
        simp only [beq_iff_eq] at he
        simp only [Option.some.injEq] at hl
        subst hl he
        exact ⟨_, List.getElem?_concat_length, rfl⟩
      · rename_i he
        rw [lookup_dropKey, if_neg (by simpa using he)] at hl
        obtain ⟨x, hx, hf⟩ := h.range l' i hl
        exact ⟨x, by rw [List.getElem?_append_left (List.getElem?_eq_some_iff.mp hx).1]; exact hx, hf⟩
  · split
    · exact h
    · split
      · exact h
      · rename_i l r _ j hj
        refine ⟨fun l' i hl => ?_⟩
        rw [lookup_dropKey] at hl
        split at hl
        · cases hl
        · obtain ⟨x, hx, hf⟩ := h.range l' i hl
          simp only [List.getElem?_modify, hx]
          split
          · exact ⟨_, rfl, hf⟩
          · exact ⟨_, rfl, hf⟩
  · split
    · exact h
    · refine ⟨fun l' i hl => ?_⟩
      obtain ⟨x, hx, hf⟩ := h.range l' i hl
      exact ⟨x, by rw [List.getElem?_append_left (List.getElem?_eq_some_iff.mp hx).1]; exact hx, hf⟩
  · exact h

theorem syncInv_fold {lossy : Bytes → Bytes} {dir : List Bytes} {onCreate : Bool} (es : List SyncEv) {s : SyncSt} (h : SyncInv s) :
    SyncInv (es.foldl (SyncSt.step lossy dir onCreate) s) := by
  induction es generalizing s with
  | nil => exact h
  | cons e es ih => exact ih (syncInv_step h e)

/-- A transfer which is not pending keeps its state. -/
theorem sync_settled {lossy : Bytes → Bytes} {dir : List Bytes} {s : SyncSt} {i : Nat} {x : Sending} (hx : s.started[i]? = some x)
    (hp : ∀ l, s.pending.lookup l ≠ some i) (es : List SyncEv) :
    (es.foldl (SyncSt.step lossy dir true) s).started[i]? = some x := by
  induction es generalizing s with
  | nil => exact hx
  | cons e es ih =>
    have hlt := (List.getElem?_eq_some_iff.mp hx).1
    refine ih ?_ ?_
    · unfold SyncSt.step
      split
      · split
        · exact hx
        · rw [List.getElem?_append_left hlt]; exact hx
      · split
        · exact hx
        · split
          · exact hx
          · rename_i j hj
            have hne : j ≠ i := fun e => hp _ (e ▸ hj)
            simp [hx, hne]
      · rename_i hh; cases hh
      · exact hx
    · unfold SyncSt.step
      split
      · split
        · exact hp
        · intro l' hl
          simp only [List.lookup_cons] at hl
          split at hl
          · simp only [Option.some.injEq] at hl; omega
          · rw [lookup_dropKey] at hl
            split at hl
            · cases hl
            · exact hp _ hl
      · split
        · exact hp
        · split
          · exact hp
          · intro l' hl
            rw [lookup_dropKey] at hl
            split at hl
            · cases hl
            · exact hp _ hl
      · rename_i hh; cases hh
      · exact hp

/-- A pending transfer: its flag is set iff the next event about its file is that it was closed. -/
theorem sync_pending {lossy : Bytes → Bytes} {dir : List Bytes} {s : SyncSt} (h : SyncInv s) {i : Nat} {x : Sending} (hx : s.started[i]? = some x)
    (hf : x.finished = some false) (hp : s.pending.lookup x.file = some i) (es : List SyncEv) :
    (es.foldl (SyncSt.step lossy dir true) s).started[i]? = some { x with finished := some (closedNext lossy dir x.file es) } := by
  induction es generalizing s with
  | nil => simp only [List.foldl_nil, closedNext, hx, ← hf]
  | cons e es ih =>
    have hlt := (List.getElem?_eq_some_iff.mp hx).1
    have uniq : ∀ l, s.pending.lookup l = some i → l = x.file := by
      intro l hl
      obtain ⟨y, hy, hl'⟩ := h.range l i hl
      rw [hx] at hy
      cases hy
      exact hl'.symm
    cases e with
    | other => exact ih (s := s) h hx hp
    | created ps =>
      cases ps with
      | nil => exact ih (s := s) h hx hp
      | cons p ps =>
        have hl := getPaths_local (lossy := lossy) (dir := dir) (p := p) (ps := ps)
        rw [List.foldl_cons]
        simp only [closedNext]
        cases hg : getPaths lossy dir (p :: ps) with
        | none =>
          rw [hg] at hl
          have hn : ¬ dir <+: p := by intro hh; simp [hh] at hl
          rw [if_neg (fun hh => hn hh.1)]
          have : s.step lossy dir true (.created (p :: ps)) = s := by simp [SyncSt.step, hg]
          rw [this]
          exact ih h hx hp
        | some lr =>
          obtain ⟨l, r⟩ := lr
          rw [hg] at hl
          have hd : dir <+: p := by
            refine Classical.byContradiction fun hh => ?_
            simp [hh] at hl
          rw [if_pos hd] at hl
          simp only [Option.map_some, Option.some.injEq] at hl
          have hst : s.step lossy dir true (.created (p :: ps)) = ⟨s.started ++ [⟨l, r, some false⟩], (l, s.started.length) :: dropKey s.pending l⟩ := by
            simp [SyncSt.step, hg]
          have hinv := syncInv_step (lossy := lossy) (dir := dir) (onCreate := true) h (.created (p :: ps))
          by_cases he : l = x.file
          · rw [if_pos ⟨hd, by rw [← hl, he]⟩, hst]
            have : ({ x with finished := some false } : Sending) = x := by rw [← hf]
            rw [this]
            refine sync_settled ?_ ?_ es
            · rw [List.getElem?_append_left hlt]; exact hx
            · intro l' hl'
              simp only [List.lookup_cons] at hl'
              split at hl'
              · simp only [Option.some.injEq] at hl'; omega
              · rw [lookup_dropKey] at hl'
                split at hl'
                · cases hl'
                · rename_i _ hne
                  exact hne ((uniq _ hl').trans he.symm)
          · rw [if_neg (fun hh => he (hl.trans hh.2))]
            refine ih hinv ?_ ?_
            · rw [hst, List.getElem?_append_left hlt]; exact hx
            · rw [hst]
              simp only [List.lookup_cons]
              have : (x.file == l) = false := by simp; exact fun e => he e.symm
              rw [this, lookup_dropKey, if_neg (fun e => he e.symm)]
              exact hp
    | closed ps =>
      cases ps with
      | nil => exact ih (s := s) h hx hp
      | cons p ps =>
        have hl := getPaths_local (lossy := lossy) (dir := dir) (p := p) (ps := ps)
        rw [List.foldl_cons]
        simp only [closedNext]
        cases hg : getPaths lossy dir (p :: ps) with
        | none =>
          rw [hg] at hl
          have hn : ¬ dir <+: p := by intro hh; simp [hh] at hl
          rw [if_neg (fun hh => hn hh.1)]
          have : s.step lossy dir true (.closed (p :: ps)) = s := by simp [SyncSt.step, hg]
          rw [this]
          exact ih h hx hp
        | some lr =>
          obtain ⟨l, r⟩ := lr
          rw [hg] at hl
          have hd : dir <+: p := by
            refine Classical.byContradiction fun hh => ?_
            simp [hh] at hl
          rw [if_pos hd] at hl
          simp only [Option.map_some, Option.some.injEq] at hl
          have hinv := syncInv_step (lossy := lossy) (dir := dir) (onCreate := true) h (.closed (p :: ps))
          by_cases he : l = x.file
          · rw [if_pos ⟨hd, by rw [← hl, he]⟩]
            have hst : s.step lossy dir true (.closed (p :: ps)) = ⟨s.started.modify i fun x => { x with finished := some true }, dropKey s.pending l⟩ := by
              simp [SyncSt.step, hg, he, hp]
            rw [hst]
            refine sync_settled ?_ ?_ es
            · simp [hx]
            · intro l' hl'
              rw [lookup_dropKey] at hl'
              split at hl'
              · cases hl'
              · rename_i hne
                exact hne ((uniq _ hl').trans he.symm)
          · rw [if_neg (fun hh => he (hl.trans hh.2))]
            refine ih hinv ?_ ?_
            · simp only [SyncSt.step, hg]
              split
              · exact hx
              · rename_i j hj
                have : j ≠ i := fun e => he (uniq l (e ▸ hj))
                simp [hx, this]
            · simp only [SyncSt.step, hg]
              split
              · exact hp
              · rw [lookup_dropKey, if_neg (fun e => he e.symm)]
                exact hp

theorem sync_new : SyncInv ⟨[], []⟩ := ⟨fun l i h => by simp at h⟩

/-- **C62**, `--start-on-create`: a file of the directory which is created is sent under its path relative to the directory, and its transfer is told that the file is complete
exactly if the next event about this file is that it was closed after writing. -/
theorem c62_on_create (lossy : Bytes → Bytes) (dir : List Bytes) (before after : List SyncEv) (p r : List Bytes) (ps : List (List Bytes)) (hp : Below dir p r) :
    (syncRun lossy dir true (before ++ .created (p :: ps) :: after)).started[(syncRun lossy dir true before).started.length]? =
      some ⟨lossy (47 :: pathOf p), lossy (pathOf r), some (closedNext lossy dir (lossy (47 :: pathOf p)) after)⟩ := by
  unfold syncRun
  rw [List.foldl_append, List.foldl_cons]
  have hinv := syncInv_fold (lossy := lossy) (dir := dir) (onCreate := true) before sync_new
  generalize before.foldl (SyncSt.step lossy dir true) ⟨[], []⟩ = s at *
  have hg : getPaths lossy dir (p :: ps) = some (lossy (47 :: pathOf p), lossy (pathOf r)) := getPaths_some.mpr ⟨p, r, rfl, hp, rfl, rfl⟩
  have hst : s.step lossy dir true (.created (p :: ps)) =
      ⟨s.started ++ [⟨lossy (47 :: pathOf p), lossy (pathOf r), some false⟩], (lossy (47 :: pathOf p), s.started.length) :: dropKey s.pending (lossy (47 :: pathOf p))⟩ := by
    simp [SyncSt.step, hg]
  have := sync_pending (lossy := lossy) (dir := dir) (syncInv_step (lossy := lossy) (dir := dir) (onCreate := true) hinv (.created (p :: ps)))
    (i := s.started.length) (x := ⟨lossy (47 :: pathOf p), lossy (pathOf r), some false⟩) (by rw [hst]; exact List.getElem?_concat_length) rfl
    (by rw [hst]; simp) after
  exact this

/-- The first path of an event. -/
def Spec.about : SyncEv → Option (List Bytes)
  | .created ps => ps.head?
  | .closed ps => ps.head?
  | .other => none

/-- **C62**, `--start-on-create`: nothing else is sent: there are as many transfers as files of the directory were created. -/
theorem c62_on_create_count (lossy : Bytes → Bytes) (dir : List Bytes) (es : List SyncEv) :
    (syncRun lossy dir true es).started.length =
      es.countP fun e => match e with
        | .created (p :: _) => decide (dir <+: p)
        | _ => false := by
  have key : ∀ (es : List SyncEv) (s : SyncSt), (es.foldl (SyncSt.step lossy dir true) s).started.length = s.started.length + es.countP fun e => match e with
        | .created (p :: _) => decide (dir <+: p)
        | _ => false := by
    intro es
    induction es with
    | nil => intro s; rfl
    | cons e es ih =>
      intro s
      rw [List.foldl_cons, ih, List.countP_cons]
      have : (s.step lossy dir true e).started.length = s.started.length + if (match e with
        | .created (p :: _) => decide (dir <+: p)
        | _ => false) = true then 1 else 0 := by
        cases e with
        | other => rfl
        | created ps =>
          cases ps with
          | nil => rfl
          | cons p ps =>
            have hl := getPaths_local (lossy := lossy) (dir := dir) (p := p) (ps := ps)
            cases hg : getPaths lossy dir (p :: ps) with
            | none =>
              rw [hg] at hl
              have hn : ¬ dir <+: p := by intro hh; simp [hh] at hl
              simp [SyncSt.step, hg, hn]
            | some lr =>
              rw [hg] at hl
              have hd : dir <+: p := by
                refine Classical.byContradiction fun hh => ?_
                simp [hh] at hl
              simp [SyncSt.step, hg, hd]
        | closed ps =>
          simp only [SyncSt.step]
          split
          · simp
          · split
            · simp
            · simp
      rw [this]
      omega
  rw [syncRun, key]
  simp

/-- **C62**, the default mode: every closing of a written file of the directory, and nothing else, sends this file, once, under its path relative to the directory. -/
theorem c62_on_close (lossy : Bytes → Bytes) (dir : List Bytes) (es : List SyncEv) :
    (syncRun lossy dir false es).started = es.filterMap fun e => match e with
      | .closed (p :: _) => if dir <+: p then some ⟨lossy (47 :: pathOf p), lossy (pathOf (p.drop dir.length)), none⟩ else none
      | _ => none := by
  have key : ∀ (es : List SyncEv) (s : SyncSt), (es.foldl (SyncSt.step lossy dir false) s).started = s.started ++ es.filterMap fun e => match e with
      | .closed (p :: _) => if dir <+: p then some ⟨lossy (47 :: pathOf p), lossy (pathOf (p.drop dir.length)), none⟩ else none
      | _ => none := by
    intro es
    induction es with
    | nil => intro s; simp
    | cons e es ih =>
      intro s
      rw [List.foldl_cons, ih, List.filterMap_cons]
      cases e with
      | other => rfl
      | created ps => rfl
      | closed ps =>
        cases ps with
        | nil => rfl
        | cons p ps =>
          by_cases hd : dir <+: p
          · simp [SyncSt.step, getPaths, stripPrefix, hd]
          · simp [SyncSt.step, getPaths, stripPrefix, hd]
  rw [syncRun, key]
  simp

/-- Between a creation and a closing there is no other event about the file. -/
theorem closedNext_closed {lossy : Bytes → Bytes} {dir p : List Bytes} {ps : List (List Bytes)} (hp : dir <+: p) (mid : List SyncEv)
    (hm : ∀ e ∈ mid, ∀ q, about e = some q → lossy (47 :: pathOf q) ≠ lossy (47 :: pathOf p)) (rest : List SyncEv) :
    closedNext lossy dir (lossy (47 :: pathOf p)) (mid ++ .closed (p :: ps) :: rest) = true := by
  induction mid with
  | nil => simp [closedNext, hp]
  | cons e mid ih =>
    have ih := ih fun e he => hm e (by simp [he])
    cases e with
    | other => exact ih
    | created qs =>
      cases qs with
      | nil => exact ih
      | cons q qs =>
        rw [List.cons_append, closedNext, if_neg (fun h => hm (.created (q :: qs)) (by simp) q rfl h.2)]
        exact ih
    | closed qs =>
      cases qs with
      | nil => exact ih
      | cons q qs =>
        rw [List.cons_append, closedNext, if_neg (fun h => hm (.closed (q :: qs)) (by simp) q rfl h.2)]
        exact ih

/-- **C62**, finding: a file which is created again before it was closed (removed and written anew) leaves the first transfer waiting for ever: however often the file
is closed later, its reader is not told. -/
theorem c62_recreated_never_told (lossy : Bytes → Bytes) (dir : List Bytes) (before mid after : List SyncEv) (p r : List Bytes) (ps qs : List (List Bytes)) (hp : Below dir p r)
    (hm : ∀ e ∈ mid, ∀ q, about e = some q → lossy (47 :: pathOf q) ≠ lossy (47 :: pathOf p)) :
    (syncRun lossy dir true (before ++ .created (p :: ps) :: (mid ++ .created (p :: qs) :: after))).started[(syncRun lossy dir true before).started.length]? =
      some ⟨lossy (47 :: pathOf p), lossy (pathOf r), some false⟩ := by
  rw [c62_on_create lossy dir before _ p r ps hp]
  have hd : dir <+: p := by rw [hp]; exact List.prefix_append _ _
  have : closedNext lossy dir (lossy (47 :: pathOf p)) (mid ++ .created (p :: qs) :: after) = false := by
    induction mid with
    | nil => simp [closedNext, hd]
    | cons e mid ih =>
      have ih := ih fun e he => hm e (by simp [he])
      cases e with
      | other => exact ih
      | created ts =>
        cases ts with
        | nil => exact ih
        | cons q ts =>
          rw [List.cons_append, closedNext, if_neg (fun h => hm (.created (q :: ts)) (by simp) q rfl h.2)]
          exact ih
      | closed ts =>
        cases ts with
        | nil => exact ih
        | cons q ts =>
          rw [List.cons_append, closedNext, if_neg (fun h => hm (.closed (q :: ts)) (by simp) q rfl h.2)]
          exact ih
  rw [this]

/-- **C62** with the server (**C64**): a file of the synchronised directory is stored on the server below its directory under the same path, and different files have different
names there. Names which normalisation keeps, in UTF-8. -/
theorem c62_mirrored (lossy : Bytes → Bytes) (hlossy : ∀ b, utf8Valid b = true → lossy b = b) (dir : List Bytes) (before after : List SyncEv) (r : List Bytes) (c : Bytes)
    (ps : List (List Bytes)) (onCreate : Bool) (hs : ∀ x ∈ r ++ [c], (47 : UInt8) ∉ x) (hk : ∀ x ∈ r ++ [c], Kept x) (hu : utf8Valid (pathOf (r ++ [c])) = true)
    (fs : Fs) (cwd : List Bytes) (cfg : DirCfg) (d : List Bytes) (h : fs.WF) (hd : canonicalize fs cwd (PPath.parse cfg.directory) = some d) (hdd : fs d = some .dir)
    (hdepth : r.length ≤ cfg.maxDepth)
    (hway : ClearWay fs d r) (hfree : fs (d ++ r ++ [c]) = none ∨ cfg.overwrite = true ∧ ∃ x, fs (d ++ r ++ [c]) = some (.file x)) :
    ∃ s ∈ (syncRun lossy dir onCreate (before ++ (if onCreate then .created ((dir ++ (r ++ [c])) :: ps) else .closed ((dir ++ (r ++ [c])) :: ps)) :: after)).started,
      s.file = lossy (47 :: pathOf (dir ++ (r ++ [c]))) ∧
      ∃ name, normalizeName s.remote = some name ∧ (serverWriter fs cwd cfg name).2 = some (d ++ r ++ [c]) := by
  have hst := c64_stored_as_named fs cwd cfg d r c h hd hdd hs hk hdepth hway hfree
  cases onCreate with
  | true =>
    have := c62_on_create lossy dir before after (dir ++ (r ++ [c])) (r ++ [c]) ps rfl
    refine ⟨_, List.mem_of_getElem? this, rfl, ?_⟩
    simp only [hlossy _ hu]
    exact hst
  | false =>
    simp only [Bool.false_eq_true, if_false]
    rw [c62_on_close]
    refine ⟨⟨lossy (47 :: pathOf (dir ++ (r ++ [c]))), lossy (pathOf (r ++ [c])), none⟩, ?_, rfl, ?_⟩
    · rw [List.mem_filterMap]
      exact ⟨.closed ((dir ++ (r ++ [c])) :: ps), by simp, by simp⟩
    · simp only [hlossy _ hu]
      exact hst

/-- Different files of the directory have different names on the server. -/
theorem c62_names_differ (lossy : Bytes → Bytes) (hlossy : ∀ b, utf8Valid b = true → lossy b = b) (a b : List Bytes) (ha : Components a) (hb : Components b)
    (hua : utf8Valid (pathOf a) = true) (hub : utf8Valid (pathOf b) = true) (h : lossy (pathOf a) = lossy (pathOf b)) : a = b := by
  rw [hlossy _ hua, hlossy _ hub] at h
  rw [← splitSlash_pathOf a ha, h, splitSlash_pathOf b hb]

/-! ### Examples -/

/-- `/w/a` is created, `/w/d/b` is created, `/w/a` is closed; `/x` is not in the directory. -/
example : (syncRun id [[119]] true [.created [[[119], [97]]], .created [[[119], [100], [98]]], .created [[[120]]], .other, .closed [[[119], [97]]]]).started =
    [⟨ascii "/w/a", ascii "a", some true⟩, ⟨ascii "/w/d/b", ascii "d/b", some false⟩] := by decide

/-- The file is written anew before it was closed: only the second transfer is told. -/
example : (syncRun id [[119]] true [.created [[[119], [97]]], .created [[[119], [97]]], .closed [[[119], [97]]], .closed [[[119], [97]]]]).started =
    [⟨ascii "/w/a", ascii "a", some false⟩, ⟨ascii "/w/a", ascii "a", some true⟩] := by decide

/-- The default mode: `/w/a` was closed twice and is sent twice. -/
example : (syncRun id [[119]] false [.created [[[119], [97]]], .closed [[[119], [97]]], .closed [[[119], [97]]]]).started =
    [⟨ascii "/w/a", ascii "a", none⟩, ⟨ascii "/w/a", ascii "a", none⟩] := by decide

/-- The hypotheses of `c62_mirrored`: `/w/n/f` goes to `/s/n/f`. -/
example : ∃ s ∈ (syncRun id [[119]] true ([] ++ (if true then .created [([[119]] ++ ([[110]] ++ [[102]]))] else .closed [([[119]] ++ ([[110]] ++ [[102]]))]) :: [])).started,
    s.file = id (47 :: pathOf ([[119]] ++ ([[110]] ++ [[102]]))) ∧
    ∃ name, normalizeName s.remote = some name ∧ (serverWriter demoFs [] ⟨[47, 115], none, 5, false⟩ name).2 = some ([[115]] ++ [[110]] ++ [[102]]) := by
  refine c62_mirrored id (fun _ _ => rfl) [[119]] [] [] [[110]] [102] [] true (by decide) ?_ (by decide) demoFs [] ⟨[47, 115], none, 5, false⟩ [[115]] demoFs_wf (by decide) (by decide) (by decide)
    (clearWay_of (by decide)) (.inl (by decide))
  intro x hx
  have : x = [110] ∨ x = [102] := by simpa using hx
  rcases this with rfl | rfl <;> exact kept_of (trim_id rfl rfl) (by decide) (by decide) (by decide)

end Tftp

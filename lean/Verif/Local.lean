import Verif.Accept
import Verif.EndDown
import Verif.ToyClient
/-
C63: what a download does to the disk of the client (std-binary/src/receiver.rs, std-binary/src/io.rs:33-42 `create_writer`, src/client/receiver.rs).
-/
namespace Tftp
open Spec

/-- std `Path::file_name`. -/
def PPath.fileName (p : PPath) : Option Bytes :=
  match p.comps.getLast? with
  | some c => if c = [46] ∨ c = [46, 46] then none else some c
  | none => none

/-- std-binary/src/receiver.rs:62-70: the local name if `--local-path` is not given. `none`: an error. -/
def defaultLocal (remote : Bytes) : Option Bytes := (PPath.parse remote).fileName

/-- std-binary/src/io.rs:33-42 `create_writer`: `File::create`, which truncates. (A slash at the end of the path is disregarded.) -/
def createWriter (fs : Fs) (cwd : List Bytes) (path : Bytes) : Fs × Option (List Bytes) :=
  openTruncate fs (if (PPath.parse path).abs then [] else cwd) (PPath.parse path).comps

/-- Is `create_writer` called in this iteration of a download (src/client/receiver.rs:120)? The conditions are those of `Cli.queryStep`. -/
def Cli.opens {S} (v : Cli S) (j : Job) (s : CliSt) (i : CliIn) : Bool :=
  match s, i.recv with
  | .query q, .dgram src dg =>
    let k := (v.initialSock j.opts).1
    match v.put k i.nonce i.sendOk (j.request q.exts), k.recv (dg.take q.room) with
    | some _, some b =>
      if src.ip ≠ v.cfg.endpoint.ip then false
      else if src ≠ v.cfg.endpoint ∧ v.cfg.allowPortChange = false then false
      else match v.reply j.write (v.requestOpts j) q.used q.initial b with
        | .accept .. => true
        | _ => false
    | _, _ => false
  | _, _ => false

/-- A client which downloads, and its file system: the location of the opened file, if any. -/
structure Home where
  fs : Fs
  cli : CliSt
  file : Option (List Bytes)

/-- The request to fetch `name`; whether the local file can be created is found out by trying. -/
def Spec.fetch (name : Bytes) (o : Opts) (ok : Bool) : Job := ⟨.download ok, name, o⟩

/-- One iteration: src/client/receiver.rs:120 opens the file; src/writers/single_block_writer.rs:31-77 appends to it. Nobody else changes the file system. -/
def Home.step {S} (cwd : List Bytes) (path : Bytes) (v : Cli S) (name : Bytes) (o : Opts) (h : Home) (i : CliIn) : Home :=
  let w := createWriter h.fs cwd path
  let s := (v.step (fetch name o w.2.isSome) h.cli i).1
  if v.opens (fetch name o w.2.isSome) h.cli i then
    match w.2 with
    | some p => ⟨w.1.set p (.file (stored s)), s, some p⟩
    | none => ⟨w.1, s, none⟩
  else match h.file with
    | some p => ⟨h.fs.set p (.file (stored s)), s, some p⟩
    | none => ⟨h.fs, s, none⟩

/-- A download from its start at time `t`. -/
def Home.run {S} (cwd : List Bytes) (path : Bytes) (v : Cli S) (name : Bytes) (o : Opts) (fs : Fs) (t : Nat) (is : List CliIn) : Home :=
  is.foldl (Home.step cwd path v name o) ⟨fs, .query (v.start (fetch name o true) t), none⟩

/-! ### The name -/

/-- **C63**: the default local name is the last component of the requested one: a plain file name. -/
theorem c63_default_name (remote c : Bytes) (h : defaultLocal remote = some c) :
    c ∈ splitSlash remote ∧ c ≠ [] ∧ c ≠ [46] ∧ c ≠ [46, 46] ∧ (47 : UInt8) ∉ c ∧ PPath.parse c = ⟨false, [c]⟩ := by
  unfold defaultLocal PPath.fileName at h
  split at h
  · rename_i x hx
    split at h
    · cases h
    · rename_i hn
      cases h
      have hn1 : c ≠ [46] := fun e => hn (.inl e)
      have hn2 : c ≠ [46, 46] := fun e => hn (.inr e)
      have hm := List.mem_of_getLast? hx
      unfold PPath.parse at hm
      simp only at hm
      have hk : c ∈ (splitSlash remote).filter fun c => decide (c ≠ [] ∧ c ≠ [46]) := by
        split at hm
        · rcases List.mem_cons.mp hm with e | e
          · exact absurd e hn1
          · exact e
        · exact hm
      obtain ⟨h1, h2⟩ := List.mem_filter.mp hk
      have h0 : c ≠ [] := (of_decide_eq_true h2).1
      have hs := splitSlash_no_slash remote c h1
      refine ⟨h1, h0, hn1, hn2, hs, ?_⟩
      unfold PPath.parse
      rw [splitSlash_single c hs]
      have hhead : ¬ (c.head? = some 47) := fun e => hs (List.mem_of_mem_head? e)
      simp [h0, hn1, hhead]
  · cases h

theorem set_set (fs : Fs) (p : List Bytes) (a b : Node) : (fs.set p a).set p b = fs.set p b := by
  funext q
  by_cases hq : q = p
  · subst hq; simp [Fs.set]
  · simp [Fs.set, hq]

/-- Opening a file: it is empty, nothing else is changed; a failure changes nothing. -/
theorem createWriter_spec (fs : Fs) (cwd : List Bytes) (path : Bytes) :
    createWriter fs cwd path = match (createWriter fs cwd path).2 with
      | some p => (fs.set p (.file []), some p)
      | none => (fs, none) := by
  unfold createWriter openTruncate openCreate
  generalize resolve fs true maxLinks _ _ = r
  cases r with
  | none => rfl
  | some p =>
    cases hp : fs p with
    | none => simp only [hp, set_set]
    | some n => cases n <;> simp only [hp]

/-- A download in progress. -/
structure HomeInv (cwd : List Bytes) (path : Bytes) (fs0 : Fs) (h : Home) : Prop where
  closed : h.file = none → h.fs = fs0 ∧ ((∃ q, h.cli = .query q) ∨ ∃ e f, h.cli = .done (.error e) f)
  opened : ∀ p, h.file = some p → (createWriter fs0 cwd path).2 = some p ∧ h.fs = fs0.set p (.file (stored h.cli)) ∧ ∀ q, h.cli ≠ .query q

theorem opens_query {S} {v : Cli S} {j : Job} {s : CliSt} {i : CliIn} (h : v.opens j s i = true) : ∃ q, s = .query q := by
  unfold Cli.opens at h
  split at h
  · exact ⟨_, rfl⟩
  · cases h

theorem accepted_not_query {S} (v : Cli S) (j : Job) (ep : Ep) (ack : Bool) (o : Opts) (rk : Option RemoteKeys) (first : Option Bytes) (i : CliIn) (q : Query) :
    (v.accepted j ep ack o rk first i).1 ≠ .query q := by
  unfold Cli.accepted
  repeat' (first | split | (simp only [ne_eq, reduceCtorEq, not_false_eq_true]; done) | dsimp only)

theorem accepted_refused {S} (v : Cli S) (j : Job) (hj : j.task = .download false) (ep : Ep) (ack : Bool) (o : Opts) (rk : Option RemoteKeys) (first : Option Bytes) (i : CliIn) :
    (v.accepted j ep ack o rk first i).1 = .done (.error .io) [] := by
  unfold Cli.accepted
  rw [hj]
  simp

/-- The step in which the file is opened, and the others. -/
theorem query_opens {S} (v : Cli S) (j : Job) (q : Query) (i : CliIn) (h : v.opens j (.query q) i = true) :
    ∃ ep ack o rk first, (v.step j (.query q) i).1 = (v.accepted j ep ack o rk first i).1 := by
  unfold Cli.opens at h
  cases hr : i.recv with
  | wouldBlock => simp [hr] at h
  | error => simp [hr] at h
  | dgram src dg =>
    simp only [hr] at h
    split at h
    · rename_i x b hp hb
      split at h
      · cases h
      · rename_i h1
        split at h
        · cases h
        · rename_i h2
          split at h
          · rename_i ack o rk first ha
            refine ⟨src, ack, o, rk, first, ?_⟩
            simp only [Cli.step, Cli.queryStep, hp, hr, hb, if_neg h1, if_neg h2, ha]
          · cases h
    · cases h

theorem query_closed {S} (v : Cli S) (j : Job) (q : Query) (i : CliIn) (h : v.opens j (.query q) i = false) :
    (∃ q', (v.step j (.query q) i).1 = .query q') ∨ ∃ e f, (v.step j (.query q) i).1 = .done (.error e) f := by
  unfold Cli.opens at h
  simp only [Cli.step, Cli.queryStep]
  split
  · exact .inr ⟨_, _, rfl⟩
  · rename_i x hp
    cases hr : i.recv with
    | wouldBlock =>
      simp only
      split
      · exact .inr ⟨_, _, rfl⟩
      · exact .inl ⟨_, rfl⟩
    | error => exact .inr ⟨_, _, rfl⟩
    | dgram src dg =>
      simp only [hr] at h ⊢
      split
      · exact .inr ⟨_, _, rfl⟩
      · rename_i b hb
        simp only [hp, hb] at h
        split
        · exact .inl ⟨_, rfl⟩
        · rename_i h1
          rw [if_neg h1] at h
          split
          · exact .inr ⟨_, _, rfl⟩
          · rename_i h2
            rw [if_neg h2] at h
            split at h
            · cases h
            · rename_i hno
              split
              · exact .inr ⟨_, _, rfl⟩
              · exact .inl ⟨_, rfl⟩
              · rename_i ha
                exact absurd ha (hno _ _ _ _)

theorem step_leaves_query {S} (v : Cli S) (j : Job) (s : CliSt) (i : CliIn) (h : ∀ q, s ≠ .query q) (q : Query) : (v.step j s i).1 ≠ .query q := by
  cases s with
  | query q' => exact absurd rfl (h q')
  | up c room ep s since auth =>
    simp only [Cli.step, Cli.upStep]
    repeat' (first | split | (simp only [ne_eq, reduceCtorEq, not_false_eq_true]; done) | dsimp only)
  | down c room ep s since auth =>
    simp only [Cli.step, Cli.downStep]
    repeat' (first | split | (simp only [ne_eq, reduceCtorEq, not_false_eq_true]; done) | dsimp only)
  | done r f => simp [Cli.step]

theorem home_step {S} {cwd : List Bytes} {path : Bytes} {fs0 : Fs} {v : Cli S} {name : Bytes} {o : Opts} {h : Home} (hi : HomeInv cwd path fs0 h) (i : CliIn) :
    HomeInv cwd path fs0 (h.step cwd path v name o i) := by
  unfold Home.step
  simp only
  split
  · rename_i ho
    obtain ⟨q, hq⟩ := opens_query ho
    have hnone : h.file = none := by
      cases hf : h.file with
      | none => rfl
      | some p => exact absurd hq ((hi.opened p hf).2.2 q)
    have hfs := (hi.closed hnone).1
    rw [hq] at ho ⊢
    obtain ⟨ep, ack, o', rk, first, hs⟩ := query_opens v _ q i ho
    have hw := createWriter_spec h.fs cwd path
    split
    · rename_i p hp
      refine ⟨(fun hf => by cases hf), fun p' hp' => ?_⟩
      cases hp'
      rw [hp] at hw
      refine ⟨by rw [← hfs]; exact hp, ?_, fun q' => ?_⟩
      · simp only
        rw [hw, set_set, hfs]
      · simp only
        rw [hs]
        exact accepted_not_query v _ ep ack o' rk first i q'
    · rename_i hp
      rw [hp] at hw
      refine ⟨fun _ => ⟨(by simp only; rw [hw]; exact hfs), .inr ?_⟩, (fun p hp => by cases hp)⟩
      simp only
      rw [hs, accepted_refused]
      · exact ⟨_, _, rfl⟩
      · rw [hp]; rfl
  · rename_i ho
    simp only [Bool.not_eq_true] at ho
    split
    · rename_i p hp
      obtain ⟨h1, h2, h3⟩ := hi.opened p hp
      refine ⟨(fun hf => by cases hf), fun p' hp' => ?_⟩
      cases hp'
      refine ⟨h1, (by simp only; rw [h2, set_set]), fun q => ?_⟩
      exact step_leaves_query v _ _ i h3 q
    · rename_i hn
      obtain ⟨h1, h2⟩ := hi.closed hn
      refine ⟨fun _ => ⟨h1, ?_⟩, fun p hp => by cases hp⟩
      rcases h2 with ⟨q, hq⟩ | ⟨e, f, hq⟩
      · rw [hq] at ho ⊢
        exact query_closed v _ q i ho
      · right
        refine ⟨e, f, ?_⟩
        simp only [hq, Cli.step]

theorem home_run {S} (cwd : List Bytes) (path : Bytes) (v : Cli S) (name : Bytes) (o : Opts) (fs0 : Fs) (t : Nat) (is : List CliIn) :
    HomeInv cwd path fs0 (Home.run cwd path v name o fs0 t is) := by
  unfold Home.run
  have key : ∀ (is : List CliIn) (h : Home), HomeInv cwd path fs0 h → HomeInv cwd path fs0 (is.foldl (Home.step cwd path v name o) h) := by
    intro is
    induction is with
    | nil => exact fun _ h => h
    | cons i is ih => exact fun h hi => ih _ (home_step hi i)
  exact key is _ ⟨fun _ => ⟨rfl, .inl ⟨_, rfl⟩⟩, fun p hp => by cases hp⟩

/-- **C63**: whatever the server and the network do, a download changes no file but the one which the local path denotes; if that was opened it holds what was
received, in particular after a success the whole result. -/
theorem c63_only_its_file {S} (cwd : List Bytes) (path : Bytes) (v : Cli S) (name : Bytes) (o : Opts) (fs0 : Fs) (t : Nat) (is : List CliIn) :
    let h := Home.run cwd path v name o fs0 t is
    (∀ q, h.fs q ≠ fs0 q → (createWriter fs0 cwd path).2 = some q) ∧
    (∀ r x, h.cli = .done (.ok r) x → ∃ p, (createWriter fs0 cwd path).2 = some p ∧ h.fs p = some (.file x)) := by
  intro h
  have hi : HomeInv cwd path fs0 h := home_run cwd path v name o fs0 t is
  constructor
  · intro q hq
    cases hf : h.file with
    | none => exact absurd (congrFun (hi.closed hf).1 q) hq
    | some p =>
      obtain ⟨h1, h2, -⟩ := hi.opened p hf
      by_cases e : q = p
      · rw [e]; exact h1
      · rw [h2, Fs.set_ne _ _ e] at hq
        exact absurd rfl hq
  · intro r x hx
    cases hf : h.file with
    | none =>
      rcases (hi.closed hf).2 with ⟨q, hq⟩ | ⟨e, f, hq⟩ <;> rw [hq] at hx <;> cases hx
    | some p =>
      obtain ⟨h1, h2, -⟩ := hi.opened p hf
      refine ⟨p, h1, ?_⟩
      rw [h2, Fs.set_eq, hx]
      rfl

/-- **C63**: with the default local name only the file of that name in the working directory is changed, if it is not a symbolic link. -/
theorem c63_default_in_cwd {S} (cwd : List Bytes) (v : Cli S) (name c : Bytes) (hc : defaultLocal name = some c) (o : Opts) (fs0 : Fs)
    (hl : ∀ a t, fs0 (cwd ++ [c]) ≠ some (.link a t)) (t : Nat) (is : List CliIn) (q : List Bytes) (hq : q ≠ cwd ++ [c]) :
    (Home.run cwd c v name o fs0 t is).fs q = fs0 q := by
  refine Classical.byContradiction fun hne => hq ?_
  have h1 := (c63_only_its_file cwd c v name o fs0 t is).1 q hne
  obtain ⟨-, -, n1, n2, -, hp⟩ := c63_default_name name c hc
  unfold createWriter openTruncate openCreate at h1
  rw [hp] at h1
  simp only [Bool.false_eq_true, if_false] at h1
  rw [resolve_eq, walk, if_neg n1, if_neg n2] at h1
  cases hn : fs0 (cwd ++ [c]) with
  | none => simp only [hn] at h1; simp [hn] at h1; exact h1.symm
  | some n =>
    cases n with
    | link a t => exact absurd hn (hl a t)
    | dir => simp only [hn, walk] at h1; simp at h1
    | file d => simp only [hn] at h1; simp [hn] at h1; exact h1.symm

/-- Specification: a datagram from the server which the client reads as acceptance or data. -/
def Spec.Welcome {S} (v : Cli S) (o : Opts) (i : CliIn) : Prop :=
  ∃ src dg room b p, i.recv = .dgram src dg ∧ src.ip = v.cfg.endpoint.ip ∧ (v.initialSock o).1.recv (dg.take room) = some b ∧ Packet.fromBytes b = .ok p ∧
    ((∃ e, p = .optionalAck e) ∨ ∃ n d, p = .data n d)

/-- **C63**: as long as the server has not accepted the request nothing is changed: a refusal, an error or silence leaves an existing file of the same name as it was. -/
theorem c63_refused_changes_nothing {S} (cwd : List Bytes) (path : Bytes) (v : Cli S) (name : Bytes) (o : Opts) (fs0 : Fs) (t : Nat) (is : List CliIn)
    (hw : ∀ i ∈ is, ¬ Welcome v o i) : (Home.run cwd path v name o fs0 t is).fs = fs0 := by
  have hno : ∀ i ∈ is, ∀ s ok, v.opens (fetch name o ok) s i = false := by
    intro i hi s ok
    cases hop : v.opens (fetch name o ok) s i with
    | false => rfl
    | true =>
      exfalso
      obtain ⟨q, rfl⟩ := opens_query hop
      refine hw i hi ?_
      unfold Cli.opens at hop
      cases hr : i.recv with
      | wouldBlock => simp [hr] at hop
      | error => simp [hr] at hop
      | dgram src dg =>
        simp only [hr] at hop
        split at hop
        · rename_i x b hp hb
          split at hop
          · cases hop
          · rename_i h1
            split at hop
            · cases hop
            · split at hop
              · rename_i ack o' rk first ha
                have hwr : (fetch name o ok).write = false := rfl
                rw [hwr] at ha
                unfold Cli.reply at ha
                have hip : src.ip = v.cfg.endpoint.ip := Classical.not_not.mp h1
                split at ha
                · rename_i se he
                  exact ⟨src, dg, q.room, b, _, hr, hip, hb, he, .inl ⟨se, rfl⟩⟩
                · simp at ha
                · rename_i n d he
                  exact ⟨src, dg, q.room, b, _, hr, hip, hb, he, .inr ⟨n, d, rfl⟩⟩
                · split at ha <;> cases ha
                · cases ha
              · cases hop
        · cases hop
  have key : ∀ (is : List CliIn) (h : Home), (∀ i ∈ is, ∀ s ok, v.opens (fetch name o ok) s i = false) → h.file = none →
      (is.foldl (Home.step cwd path v name o) h).fs = h.fs := by
    intro is
    induction is with
    | nil => intro h _ _; rfl
    | cons i is ih =>
      intro h ho hf
      have hst : (h.step cwd path v name o i).fs = h.fs ∧ (h.step cwd path v name o i).file = none := by
        unfold Home.step
        simp only
        rw [ho i (by simp)]
        simp [hf]
      rw [List.foldl_cons, ih _ (fun i hi => ho i (by simp [hi])) hst.2, hst.1]
  exact key is _ hno rfl

/-- **C63**, finding: once the server has accepted, the old contents of the local file are lost, whatever follows: if the transfer fails, only what was received so far remains. -/
theorem c63_failed_download_truncates {S} (cwd : List Bytes) (path : Bytes) (v : Cli S) (name : Bytes) (o : Opts) (fs0 : Fs) (t : Nat) (is : List CliIn)
    (p : List Bytes) (hp : (createWriter fs0 cwd path).2 = some p)
    (hd : ∃ c room ep s since auth, (Home.run cwd path v name o fs0 t is).cli = .down c room ep s since auth) (more : List CliIn) :
    (Home.run cwd path v name o fs0 t (is ++ more)).fs p = some (.file (stored (Home.run cwd path v name o fs0 t (is ++ more)).cli)) := by
  have hi := home_run cwd path v name o fs0 t is
  have hf : (Home.run cwd path v name o fs0 t is).file ≠ none := by
    intro e
    obtain ⟨c, room, ep, s, since, auth, hd⟩ := hd
    rcases (hi.closed e).2 with ⟨q, hq⟩ | ⟨e, f, hq⟩ <;> rw [hd] at hq <;> cases hq
  have keep : ∀ (more : List CliIn) (h : Home), HomeInv cwd path fs0 h → h.file ≠ none → (more.foldl (Home.step cwd path v name o) h).file ≠ none := by
    intro more
    induction more with
    | nil => exact fun _ _ h => h
    | cons i more ih =>
      intro h hi hf
      refine ih _ (home_step hi i) ?_
      obtain ⟨p', hp'⟩ := Option.ne_none_iff_exists'.mp hf
      unfold Home.step
      simp only
      split
      · rename_i ho
        obtain ⟨q, hq⟩ := opens_query ho
        exact absurd hq ((hi.opened p' hp').2.2 q)
      · simp [hp']
  have hrun : Home.run cwd path v name o fs0 t (is ++ more) = more.foldl (Home.step cwd path v name o) (Home.run cwd path v name o fs0 t is) := by
    simp [Home.run, List.foldl_append]
  have hi' := home_run cwd path v name o fs0 t (is ++ more)
  have hf' : (Home.run cwd path v name o fs0 t (is ++ more)).file ≠ none := by rw [hrun]; exact keep more _ hi hf
  obtain ⟨p', hp'⟩ := Option.ne_none_iff_exists'.mp hf'
  obtain ⟨h1, h2, -⟩ := hi'.opened p' hp'
  rw [hp] at h1
  cases h1
  rw [h2, Fs.set_eq]

/-- The client with its disk is the client of Client.lean, with the outcome of `create_writer` for the original file system. -/
theorem home_cli {S} (cwd : List Bytes) (path : Bytes) (v : Cli S) (name : Bytes) (o : Opts) (fs0 : Fs) (t : Nat) (is : List CliIn) :
    (Home.run cwd path v name o fs0 t is).cli = (v.run (fetch name o (createWriter fs0 cwd path).2.isSome) t is).1 := by
  have hstart : v.start (fetch name o true) t = v.start (fetch name o (createWriter fs0 cwd path).2.isSome) t := rfl
  have hrun : ∀ (j : Job) (is : List CliIn) (s : CliSt), (v.runFrom j s is).1 = is.foldl (fun s i => (v.step j s i).1) s := by
    intro j is
    induction is with
    | nil => intro s; rfl
    | cons i is ih => intro s; exact ih _
  have hj : ∀ (a b : Bool) (s : CliSt) (i : CliIn), (∀ q, s ≠ .query q) → v.step (fetch name o a) s i = v.step (fetch name o b) s i := by
    intro a b s i hs
    cases s with
    | query q => exact absurd rfl (hs q)
    | up => rfl
    | down => rfl
    | done => rfl
  have hcli : ∀ (h : Home) (i : CliIn), (h.step cwd path v name o i).cli = (v.step (fetch name o (createWriter h.fs cwd path).2.isSome) h.cli i).1 := by
    intro h i
    unfold Home.step
    simp only
    split
    · split <;> rfl
    · split <;> rfl
  have key : ∀ (is : List CliIn) (h : Home), HomeInv cwd path fs0 h →
      (is.foldl (Home.step cwd path v name o) h).cli = is.foldl (fun s i => (v.step (fetch name o (createWriter fs0 cwd path).2.isSome) s i).1) h.cli := by
    intro is
    induction is with
    | nil => intro h _; rfl
    | cons i is ih =>
      intro h hi
      rw [List.foldl_cons, ih _ (home_step hi i), List.foldl_cons, hcli]
      congr 2
      cases hf : h.file with
      | none => rw [(hi.closed hf).1]
      | some p => exact hj _ _ _ _ (hi.opened p hf).2.2
  rw [Cli.run, hrun]
  exact key is _ ⟨fun _ => ⟨rfl, .inl ⟨_, rfl⟩⟩, fun p hp => by cases hp⟩

/-! ### Examples -/

namespace Toy

def noEnc : Opts := (down .none).opts

/-- "d/a" is fetched as "a" into `/s`, where a file "a" exists already: it is replaced by the two bytes received. -/
example : defaultLocal (ascii "d/a") = some (ascii "a") ∧
    (Home.run [[115]] (ascii "a") (cli none) (ascii "d/a") noEnc demoFs 0 [hear 1 tsize, hear 2 (.data 1 [8, 9])]).fs [[115], [97]] = some (.file [8, 9]) ∧
    result (Home.run [[115]] (ascii "a") (cli none) (ascii "d/a") noEnc demoFs 0 [hear 1 tsize, hear 2 (.data 1 [8, 9])]).cli = some (2, [8, 9]) := by
  decide +kernel

/-- It is unchanged if the server refuses. -/
example : (∀ i ∈ [hear 1 (.error .fileNotFound [])], ¬ Welcome (cli none) noEnc i) ∧
    (Home.run [[115]] (ascii "a") (cli none) (ascii "d/a") noEnc demoFs 0 [hear 1 (.error .fileNotFound [])]).fs [[115], [97]] = some (.file [1]) ∧
    failure (Home.run [[115]] (ascii "a") (cli none) (ascii "d/a") noEnc demoFs 0 [hear 1 (.error .fileNotFound [])]).cli = some .remoteError := by
  have hr : ∀ i ∈ [hear 1 (.error .fileNotFound [])], ¬ Welcome (cli none) noEnc i := by
    intro i hi
    obtain rfl : i = hear 1 (.error .fileNotFound []) := by simpa using hi
    rintro ⟨src, dg, room, b, p, h1, -, h3, h4, h5⟩
    cases h1
    have hb : b = (Packet.toBytes (.error .fileNotFound [])).take room := by
      have : (Cli.initialSock (cli none) noEnc).1.recv ((Packet.toBytes (.error .fileNotFound [])).take room) = some ((Packet.toBytes (.error .fileNotFound [])).take room) := rfl
      rw [this] at h3
      exact (Option.some.inj h3).symm
    have : ∀ room ≤ 5, isOack (Packet.fromBytes ((Packet.toBytes (.error .fileNotFound [])).take room)) = false ∧
        (∀ n d, Packet.fromBytes ((Packet.toBytes (.error .fileNotFound [])).take room) ≠ .ok (.data n d)) := by
      intro room hroom
      have : room = 0 ∨ room = 1 ∨ room = 2 ∨ room = 3 ∨ room = 4 ∨ room = 5 := by omega
      rcases this with rfl | rfl | rfl | rfl | rfl | rfl <;> exact ⟨by decide +kernel, fun n d h => by cases h⟩
    have h5' : (Packet.toBytes (.error .fileNotFound [])).take room = (Packet.toBytes (.error .fileNotFound [])).take (min room 5) := by
      have hl : (Packet.toBytes (.error .fileNotFound [])).length = 5 := by decide
      rw [List.take_eq_take_iff, hl]
      omega
    obtain ⟨g1, g2⟩ := this (min room 5) (Nat.min_le_right _ _)
    rw [hb, h5'] at h4
    rcases h5 with ⟨e, rfl⟩ | ⟨n, d, rfl⟩
    · rw [h4] at g1; cases g1
    · exact g2 n d h4
  refine ⟨hr, ?_, by decide +kernel⟩
  rw [c63_refused_changes_nothing _ _ _ _ _ _ _ _ hr]
  decide

/-- The finding: accepted, then silence: the old file is gone. -/
example : (Home.run [[115]] (ascii "a") (cli none) (ascii "d/a") noEnc demoFs 0 ([hear 1 tsize] ++ [quiet 5000])).fs [[115], [97]] = some (.file []) ∧
    failure (Home.run [[115]] (ascii "a") (cli none) (ascii "d/a") noEnc demoFs 0 ([hear 1 tsize] ++ [quiet 5000])).cli = some .timeout ∧
    demoFs [[115], [97]] = some (.file [1]) := by
  decide +kernel

end Toy

end Tftp

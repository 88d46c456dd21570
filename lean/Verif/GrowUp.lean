import Verif.GrowSource
/-
C72, C73: uploads of a file which is still being written.
-/
namespace Tftp
open Spec

/-! ### Sources which block -/

/-- If the client is uploading: its source is in such a state. -/
def CliG.srcIs {σ} (g : CliG σ) (P : σ → Prop) : Prop :=
  match g with
  | .up _ _ _ s _ _ => P s.reader.src
  | .plain _ => False

/-- Behaves like a regular file, but blocks when `Busy`. -/
structure Waits {σ ι} (T : Source σ ι) (bs : Nat) (Ok Busy : σ → ι → Prop) (R : ReaderG σ → Reader → Prop) : Prop where
  sim : Simulates T bs Ok R
  busy : ∀ {g r}, R g r → ∀ retry x, Ok g.src x → ∀ cap, bs ≤ cap → (g.next T retry x cap).2 = .ioErr → Busy g.src x
  again : ∀ {g r}, R g r → ∀ retry, g.again? retry = false

/-- What the two runs have in common: in iteration `k` the ordinary client is given the input `js[k]`. -/
structure LikeFile {S σ ι} (v : Cli S) (T : Source σ ι) (src : σ) (Busy : σ → ι → Prop) (len : Nat) (j j' : Job) (g : CliG σ) (s : CliSt) (is : List (CliIn × ι))
    (js : List CliIn) : Prop where
  length : js.length = is.length
  input : ∀ k (hk : k < is.length), ∃ f, js[k]'(by omega) = { is[k].1 with fail := f } ∧
    (f = true → (v.runFromG T src j g (is.take k)).1.srcIs fun s => Busy s is[k].2)
  sent : (v.runFromG T src j g is).2 = (v.runFrom j' s js).2
  result : (v.runFromG T src j g is).1.result = (v.runFrom j' s js).1.outcome
  block : ∀ k c room ep y since auth, (v.runFrom j' s (js.take k)).1 = .up c room ep y since auth → c.bs = len

theorem LikeFile.cons {S σ ι} {v : Cli S} {T : Source σ ι} {src : σ} {Busy : σ → ι → Prop} {len : Nat} {j j' : Job} {g g' : CliG σ} {s s' : CliSt}
    {out : List (Ep × Bytes)} {i : CliIn × ι} {is : List (CliIn × ι)} {f : Bool} {js : List CliIn} (hg : v.stepG T src j g i.1 i.2 = (g', out))
    (hs : v.step j' s { i.1 with fail := f } = (s', out)) (hf : f = true → g.srcIs fun s => Busy s i.2)
    (hb : ∀ c room ep y since auth, s = .up c room ep y since auth → c.bs = len) (h : LikeFile v T src Busy len j j' g' s' is js) :
    LikeFile v T src Busy len j j' g s (i :: is) ({ i.1 with fail := f } :: js) where
  length := by simp only [List.length_cons, h.length]
  input k hk := by
    cases k with
    | zero => exact ⟨f, rfl, hf⟩
    | succ k =>
      obtain ⟨f', h1, h2⟩ := h.input k (by simpa using hk)
      refine ⟨f', by simpa using h1, fun h => ?_⟩
      have := h2 h
      simpa only [List.take_succ_cons, Cli.runFromG, hg, List.getElem_cons_succ] using this
  sent := by simp only [Cli.runFromG, Cli.runFrom, hg, hs, h.sent]
  result := by simp only [Cli.runFromG, Cli.runFrom, hg, hs, h.result]
  block k c room ep y since auth he := by
    cases k with
    | zero => exact hb _ _ _ _ _ _ he
    | succ k =>
      refine h.block k c room ep y since auth ?_
      simpa only [List.take_succ_cons, Cli.runFrom, hs] using he

/-- What may happen in the iterations: nothing which is not `Ok`. -/
def Cli.allOk {S σ ι} (v : Cli S) (T : Source σ ι) (src : σ) (j : Job) (Ok : σ → ι → Prop) (g : CliG σ) (is : List (CliIn × ι)) : Prop :=
  ∀ k (hk : k < is.length), ¬ (v.runFromG T src j g (is.take k)).1.srcIs fun s => ¬ Ok s is[k].2

theorem allOk_cons {S σ ι} {v : Cli S} {T : Source σ ι} {src : σ} {j : Job} {Ok : σ → ι → Prop} {g : CliG σ} {i : CliIn × ι} {is : List (CliIn × ι)}
    (h : v.allOk T src j Ok g (i :: is)) : (¬ g.srcIs fun s => ¬ Ok s i.2) ∧ v.allOk T src j Ok (v.stepG T src j g i.1 i.2).1 is := by
  refine ⟨h 0 (by simp), fun k hk => ?_⟩
  have := h (k + 1) (by simp only [List.length_cons]; omega)
  simpa only [List.take_succ_cons, Cli.runFromG, List.getElem_cons_succ] using this

theorem CliRel.likeFile {S σ ι} {v : Cli S} {T : Source σ ι} {src : σ} {Ok Busy : σ → ι → Prop} {R : ReaderG σ → Reader → Prop} {len : Nat}
    (hW : Waits T len Ok Busy R) (j j' : Job) {g : CliG σ} {s : CliSt} (h : CliRel R len g s) (is : List (CliIn × ι))
    (hwb : ∀ i ∈ is, i.1.wb = true) (hok : v.allOk T src j Ok g is) : ∃ js, LikeFile v T src Busy len j j' g s is js := by
  induction is generalizing g s with
  | nil =>
    refine ⟨[], rfl, fun k hk => absurd hk (Nat.not_lt_zero k), rfl, ?_, fun k c room ep y since auth he => ?_⟩
    · cases h <;> rfl
    · simp only [List.take_nil, Cli.runFrom] at he
      cases h with
      | done r f => cases he
      | up h hc hl' =>
        simp only [CliSt.up.injEq] at he
        rw [← he.1]; exact hl'
  | cons i is ih =>
    obtain ⟨o1, o2⟩ := allOk_cons hok
    have hwb' : ∀ i ∈ is, i.1.wb = true := fun i hi => hwb i (List.mem_cons_of_mem _ hi)
    have hb : ∀ c room ep y since auth, s = .up c room ep y since auth → c.bs = len := by
      intro c room ep y since auth he
      cases h with
      | done r f => cases he
      | up h hc hl' =>
        simp only [CliSt.up.injEq] at he
        rw [← he.1]; exact hl'
    cases h with
    | done r f =>
      obtain ⟨js, hj⟩ := ih (.done r f) hwb' o2
      exact ⟨_, LikeFile.cons (f := false) rfl rfl (fun h => by cases h) hb hj⟩
    | @up c room ep g s since auth h hc hl' =>
      subst hl'
      have hokx : Ok g.reader.src i.2 := Classical.not_not.1 o1
      obtain ⟨u1, u2⟩ := CliRel.upload (v := v) (room := room) (ep := ep) (since := since) (auth := auth) hW.sim hc h i.1 i.2 hokx
      have hin : T.input c.cap g.reader i.1 i.2 = { i.1 with fail := decide ((g.reader.next T i.1.retry i.2 c.cap).2 = .ioErr) } := by
        simp only [Source.input, hW.again h.reader, Bool.not_false, Bool.and_true]
      obtain ⟨js, hj⟩ := ih u2 hwb' o2
      rw [hin] at u1 hj
      refine ⟨_, LikeFile.cons (f := decide ((g.reader.next T i.1.retry i.2 c.cap).2 = .ioErr))
        (show v.stepG T src j (.up c room ep g since auth) i.1 i.2 = (_, (v.upStepG T c room ep g since auth i.1 i.2).2) from rfl)
        (show _ = ((v.upStep c room ep s since auth _).1, _) by rw [u1]; rfl) (fun hf => ?_) hb hj⟩
      exact hW.busy h.reader _ _ hokx _ hc (of_decide_eq_true hf)

theorem run_waits {S σ ι} (v : Cli S) {T : Source σ ι} {src : σ} {Ok : σ → ι → Prop} {Busy : Nat → σ → ι → Prop} (name : Bytes) (o : Opts) (size : Option Nat) (f : Bytes) (file : Nat → Bytes)
    (R : Nat → ReaderG σ → Reader → Prop) (hW : ∀ len, 471 ≤ len → len ≤ Max.max 512 o.blockSize → Waits T len Ok (Busy len) (R len))
    (hR : ∀ len W, 471 ≤ len → len ≤ Max.max 512 o.blockSize → R len (ReaderG.new (v.kind W) src len W) (Reader.new (v.kind W) (file len) len W))
    (q : Query) (is : List (CliIn × ι)) (hwb : ∀ i ∈ is, i.1.wb = true) (hok : v.allOk T src ⟨.upload size f, name, o⟩ Ok (.plain (.query q)) is) :
    ∃ len, (471 ≤ len ∧ len ≤ Max.max 512 o.blockSize) ∧
      ∃ js, LikeFile v T src (Busy len) len ⟨.upload size f, name, o⟩ ⟨.upload size (file len), name, o⟩ (.plain (.query q)) (.query q) is js := by
  induction is generalizing q with
  | nil =>
    refine ⟨471, ⟨by omega, by omega⟩, [], rfl, fun n hn => absurd hn (Nat.not_lt_zero n), rfl, rfl, fun k c room ep y since auth he => ?_⟩
    simp only [List.take_nil, Cli.runFrom] at he
    cases he
  | cons i is ih =>
    obtain ⟨-, o2⟩ := allOk_cons hok
    have hx' : ∀ i ∈ is, i.1.wb = true := fun i hi => hwb i (List.mem_cons_of_mem _ hi)
    have hq : ∀ c room ep y since auth len, CliSt.query q = .up c room ep y since auth → c.bs = len := by intro _ _ _ _ _ _ _ h; cases h
    have hs : v.stepG T src ⟨.upload size f, name, o⟩ (.plain (.query q)) i.1 i.2 =
      match v.step ⟨.upload size f, name, o⟩ (.query q) i.1 with
      | (.up c room ep _ since auth, out) => (.up c room ep ⟨ReaderG.new (v.kind c.W) src c.bs c.W, 0, false, false⟩ since auth, out)
      | (s, out) => (.plain s, out) := rfl
    have hfail : ∀ f', v.step ⟨.upload size f', name, o⟩ (.query q) { i.1 with fail := false } = v.step ⟨.upload size f', name, o⟩ (.query q) i.1 := fun _ => rfl
    have key := fun f' => query_file v name o size f f' q i.1
    generalize hy : v.step ⟨.upload size f, name, o⟩ (.query q) i.1 = y at hs key
    obtain ⟨y1, y2⟩ := y
    simp only at key
    rcases (key f).2 with ⟨c, room, ep, since, auth, c1, c2, c3, _⟩ | ⟨_, ⟨q', c3⟩ | ⟨r, e, c3⟩⟩
    · subst c3
      simp only at hs
      rw [hs] at o2
      obtain ⟨k1, k2⟩ := key (file c.bs)
      rcases k2 with ⟨c', room', ep', since', auth', _, _, d3, d4⟩ | ⟨_, ⟨_, d⟩ | ⟨_, _, d⟩⟩
      · simp only [CliSt.up.injEq] at d3
        obtain ⟨rfl, rfl, rfl, -, rfl, rfl⟩ := d3
        have hrel : CliRel (R c.bs) c.bs (.up c room ep ⟨ReaderG.new (v.kind c.W) src c.bs c.W, 0, false, false⟩ since auth)
            (v.step ⟨.upload size (file c.bs), name, o⟩ (.query q) i.1).1 := by
          rw [d4]
          exact .up ⟨hR c.bs c.W c2.1 c2.2, rfl, rfl, rfl⟩ c1 rfl
        obtain ⟨js, hj⟩ := CliRel.likeFile (hW c.bs c2.1 c2.2) _ ⟨.upload size (file c.bs), name, o⟩ hrel is hx' o2
        exact ⟨c.bs, c2, _, LikeFile.cons (f := false) hs (by rw [hfail, k1]) (fun h => by cases h)
          (fun c room ep y since auth => hq c room ep y since auth _) hj⟩
      · cases d
      · cases d
    · subst c3
      simp only at hs
      rw [hs] at o2
      obtain ⟨len, hl, js, ha⟩ := ih q' hx' o2
      refine ⟨len, hl, ?_⟩
      obtain ⟨k1, k2⟩ := key (file len)
      rcases k2 with ⟨_, _, _, _, _, _, _, d3, _⟩ | ⟨d, _⟩
      · cases d3
      · exact ⟨_, LikeFile.cons (f := false) hs (s' := .query q') (by rw [hfail, k1, d]) (fun h => by cases h) (fun c room ep y since auth => hq c room ep y since auth _) ha⟩
    · subst c3
      simp only at hs
      rw [hs] at o2
      refine ⟨471, ⟨by omega, by omega⟩, ?_⟩
      obtain ⟨k1, k2⟩ := key (file 471)
      rcases k2 with ⟨_, _, _, _, _, _, _, d3, _⟩ | ⟨d, _⟩
      · cases d3
      · obtain ⟨js, hj⟩ := CliRel.likeFile (hW 471 (by omega) (by omega)) _ ⟨.upload size (file 471), name, o⟩ (.done r e) is hx' o2
        exact ⟨_, LikeFile.cons (f := false) hs (s' := .done r e) (by rw [hfail, k1, d]) (fun h => by cases h)
          (fun c room ep y since auth => hq c room ep y since auth _) hj⟩

/-! ### Without `prefer_seek` -/

/-- The reader does not seek. -/
def Unsought {σ} (file : Bytes) (bs : Nat) (At : Nat → σ → Prop) (g : ReaderG σ) (r : Reader) : Prop := ReaderRel file bs At g r ∧ r.seeks = false

theorem Unsought.next {σ ι} {T : Source σ ι} {file : Bytes} {bs : Nat} {At : Nat → σ → Prop} {Ok : σ → ι → Prop} (hD : Delivers T file bs At Ok) (hbs : 0 < bs)
    {g : ReaderG σ} {r : Reader} (h : Unsought file bs At g r) (retry : Bool) (x : ι) (hok : Ok g.src x) (cap : Nat) (hcap : bs ≤ cap) :
    (g.next T retry x cap).2 = (r.next retry (T.fails g.src bs x) cap).2 ∧ Unsought file bs At (g.next T retry x cap).1 (r.next retry (T.fails g.src bs x) cap).1 := by
  obtain ⟨h, hs⟩ := h
  refine And.imp_right (fun h => ⟨h, by rw [next_seeks]; exact hs⟩) ?_
  cases g with
  | single g =>
    cases r with
    | single s => exact SingleRel.next hD hbs h retry x hok cap hcap
    | multi s => exact h.elim
    | seek s => exact h.elim
  | multi g =>
    cases r with
    | single s => exact h.elim
    | multi s =>
      obtain ⟨k, h⟩ := h
      exact MultiRel.next hD hbs h retry x hok cap hcap
    | seek s => exact h.elim
  | seek g =>
    cases r with
    | single s => exact h.elim
    | multi s => exact h.elim
    | seek s => cases hs

theorem Unsought.waits {σ ι} {T : Source σ ι} {file : Bytes} {bs : Nat} {At : Nat → σ → Prop} {Ok Busy : σ → ι → Prop} (hD : Delivers T file bs At Ok) (hbs : 0 < bs)
    (hB : ∀ {k s}, At k s → k < nblocks file bs → ∀ x, Ok s x → T.fails s bs x = true → Busy s x) : Waits T bs Ok Busy (Unsought file bs At) where
  sim := {
    next := fun h retry x hok cap hcap => ⟨_, Unsought.next hD hbs h retry x hok cap hcap⟩
    free := fun h b => by
      have := h.1.free b
      exact ⟨this.1, this.2, by rw [free_seeks]; exact h.2⟩
    finished := fun h => h.1.finished }
  busy {g r} h retry x hok cap hcap he := by
    have hn := (Unsought.next hD hbs h retry x hok cap hcap).1
    rw [he] at hn
    obtain ⟨k, k1, k2, k3⟩ := h.1.over
    have hns := (next_fail r retry cap).1
    have hf : T.fails g.src bs x = true := by
      cases hf : T.fails g.src bs x with
      | true => rfl
      | false => rw [hf] at hn; exact absurd hn.symm hns
    refine hB k2 ?_ x hok hf
    refine Nat.lt_of_le_of_ne k1 fun hk => ?_
    have ha : r.again? retry = false := by
      have := h.2
      cases r with
      | seek s => cases this
      | _ => rfl
    rw [k3 hk retry ha _ false cap] at hn
    exact hns hn.symm
  again {g r} h retry := by
    rw [h.1.again]
    have := h.2
    cases r with
    | seek s => cases this
    | _ => rfl

theorem kind_seeks {S} (v : Cli S) (hp : v.cfg.preferSeek = false) (W : Nat) (f : Bytes) (b : Nat) : (Reader.new (v.kind W) f b W).seeks = false := by
  unfold Cli.kind
  rw [hp]
  simp only [Bool.false_eq_true, ↓reduceIte]
  split <;> rfl

/-! ### C72 -/

/-- A file which has `file` as its content when the upload begins; `w`: what is done to it afterwards. `fin`: it has been closed already. -/
def Grow.new (file : Bytes) (fin : Bool) (w : List BlkEv) : Grow := ⟨⟨file, fin, 0, [], none⟩, w⟩

/-- The run of a client which uploads a file while it is written (std-binary/src/sync.rs:68-77, std-binary/src/blocking_reader.rs:15-23): no size is
announced, and the only error which a read of the file reports is `WouldBlock`. -/
def Cli.growRun {S} (v : Cli S) (g : Grow) (name : Bytes) (o : Opts) (t : Nat) (is : List (CliIn × Nat × Nat)) : CliG Grow × List (Ep × Bytes) :=
  v.runG growing g ⟨.upload none [], name, o⟩ t (is.map fun i => ({ i.1 with fail := false, wb := true }, i.2))

/-- The race of C49 does not occur in the run. -/
def Spec.raceFree {S} (v : Cli S) (g : Grow) (name : Bytes) (o : Opts) (t : Nat) (is : List (CliIn × Nat × Nat)) : Prop :=
  ∀ k (hk : k < is.length), ¬ (v.growRun g name o t (is.take k)).1.srcIs fun s => ¬ NoRace s is[k].2

theorem GrowAt.init {file : Bytes} {fin : Bool} {w : List BlkEv} (hw : Scribe fin w) {n : Nat} (hn : 0 < n) :
    GrowAt (file ++ appended w) 0 n (Grow.new file fin w) :=
  ⟨rfl, hw, rfl, ⟨rfl, Nat.zero_le _⟩, rfl, hn⟩

/-- **C72**: a client which uploads a file while it is being written sends exactly the datagrams which a client would send which uploads the complete file,
if some of the reads of this file blocked, and has the same result. A read blocks only if the file has not been closed (when the reader looks) and there was no whole block (when it read). -/
theorem c72_growing_upload {S} (v : Cli S) (hp : v.cfg.preferSeek = false) (name : Bytes) (o : Opts) (t : Nat) (file : Bytes) (fin : Bool) (w : List BlkEv)
    (hw : Scribe fin w) (is : List (CliIn × Nat × Nat)) (hr : raceFree v (Grow.new file fin w) name o t is) :
    ∃ len, (471 ≤ len ∧ len ≤ Max.max 512 o.blockSize) ∧ ∃ js : List CliIn, ∃ hj : js.length = is.length,
      (∀ k (hk : k < is.length), ∃ f, js[k] = { is[k].1 with fail := f, wb := true } ∧
        (f = true → (v.growRun (Grow.new file fin w) name o t (is.take k)).1.srcIs fun g => g.complete is[k].2 = false ∧ (g.write is[k].2.1).unread < len)) ∧
      (v.growRun (Grow.new file fin w) name o t is).2 = (v.run ⟨.upload none (file ++ appended w), name, o⟩ t js).2 ∧
      (v.growRun (Grow.new file fin w) name o t is).1.result = (v.run ⟨.upload none (file ++ appended w), name, o⟩ t js).1.outcome ∧
      ∀ k c room ep s since auth, (v.run ⟨.upload none (file ++ appended w), name, o⟩ t (js.take k)).1 = .up c room ep s since auth → c.bs = len := by
  obtain ⟨len, hl, js, hj⟩ := run_waits v (T := growing) (src := Grow.new file fin w) (Ok := NoRace) (Busy := fun len g x => g.complete x = false ∧ (g.write x.1).unread < len) name o none []
    (fun _ => file ++ appended w)
    (fun len => Unsought (file ++ appended w) len fun k g => k < nblocks (file ++ appended w) len → GrowAt (file ++ appended w) (bytesIn (file ++ appended w) len k) len g)
    (fun len h1 _ => Unsought.waits (growing_delivers (by omega)) (by omega) fun {k s} hs hk x hok hf => by
      rcases growing_step (hs hk) x hok with ⟨_, _, h⟩ | ⟨h, _⟩
      · exact h
      · simp only [Source.fails, h, Option.isNone_some, Bool.false_eq_true] at hf)
    (fun len W h1 _ => ⟨ReaderRel.init (fun _ => by
      have : bytesIn (file ++ appended w) len 0 = 0 := by simp [bytesIn]
      rw [this]; exact GrowAt.init hw (by omega)) _ _, kind_seeks v hp _ _ _⟩)
    (v.start ⟨.upload none [], name, o⟩ t) (is.map fun i => ({ i.1 with fail := false, wb := true }, i.2))
    (fun i hi => by
      obtain ⟨a, _, rfl⟩ := List.mem_map.1 hi
      rfl)
    (fun k hk => by
      have := hr k (by simpa using hk)
      simpa only [Cli.growRun, Cli.runG, List.map_take, List.getElem_map] using this)
  refine ⟨len, hl, js, by simpa using hj.length, fun k hk => ?_, hj.sent, hj.result, hj.block⟩
  obtain ⟨f, h1, h2⟩ := hj.input k (by simpa using hk)
  refine ⟨f, by simpa only [List.getElem_map] using h1, fun h => ?_⟩
  simpa only [Cli.growRun, Cli.runG, List.map_take, List.getElem_map] using h2 h

/-! ### C73 -/

/-- The run of a client which encrypts a file and uploads it while it is written: `StreamReader` over `BlockingReader` (std-binary/src/sync.rs:68-77,
std-binary/src/sender.rs:72-84, std-binary/src/encryption_io.rs:38-56). -/
def Cli.sealedGrowRun {S} (v : Cli S) (A : StreamAead) (nonce : Bytes) (g : Grow) (name : Bytes) (o : Opts) (t : Nat) (is : List (CliIn × Nat × Nat)) :
    CliG (SealG Grow) × List (Ep × Bytes) :=
  v.runG (sealingOver A growing) ⟨some 0, nonce, true, g⟩ ⟨.upload none [], name, o⟩ t (is.map fun i => ({ i.1 with fail := false, wb := true }, i.2))

def Spec.raceFreeSealed {S} (v : Cli S) (A : StreamAead) (nonce : Bytes) (g : Grow) (name : Bytes) (o : Opts) (t : Nat) (is : List (CliIn × Nat × Nat)) : Prop :=
  ∀ k (hk : k < is.length), ¬ (v.sealedGrowRun A nonce g name o t (is.take k)).1.srcIs fun s => ¬ NoRace s.src is[k].2

/-- **C73**: a client which encrypts a file while it is being written, and uploads it, sends exactly the datagrams which a client would send which uploads the
encryption of the complete file, cut for the block size `len` on which client and server agree, if some reads blocked, and has the same result. -/
theorem c73_growing_encrypted {S} (v : Cli S) (hp : v.cfg.preferSeek = false) (A : StreamAead) {nonce : Bytes} (hn : nonce.length = 19) (name : Bytes) {o : Opts}
    (ho : o.blockSize ≤ 1425) (t : Nat) (file : Bytes) (fin : Bool) (w : List BlkEv) (hw : Scribe fin w) (hf : (file ++ appended w).length < 2 ^ 36)
    (is : List (CliIn × Nat × Nat)) (hr : raceFreeSealed v A nonce (Grow.new file fin w) name o t is) :
    ∃ len, (471 ≤ len ∧ len ≤ 1425) ∧ ∃ js : List CliIn, ∃ hj : js.length = is.length,
      (∀ k (hk : k < is.length), ∃ f, js[k] = { is[k].1 with fail := f, wb := true } ∧
        (f = true → (v.sealedGrowRun A nonce (Grow.new file fin w) name o t (is.take k)).1.srcIs fun g => g.src.complete is[k].2 = false ∧ (g.src.write is[k].2.1).unread < len - 16)) ∧
      (v.sealedGrowRun A nonce (Grow.new file fin w) name o t is).2 = (Spec.sealedRun v A nonce (file ++ appended w) len name o t js).2 ∧
      (v.sealedGrowRun A nonce (Grow.new file fin w) name o t is).1.result = (Spec.sealedRun v A nonce (file ++ appended w) len name o t js).1.outcome ∧
      ∀ k c room ep s since auth, (Spec.sealedRun v A nonce (file ++ appended w) len name o t (js.take k)).1 = .up c room ep s since auth → c.bs = len := by
  have fits : ∀ len, 471 ≤ len → len ≤ Max.max 512 o.blockSize → Upload.Fits ⟨nonce, file ++ appended w, len⟩ := fun len h1 h2 => fits_of hn hf (by omega) (by omega)
  obtain ⟨len, hl, js, hj⟩ := run_waits v (T := sealingOver A growing) (src := ⟨some 0, nonce, true, Grow.new file fin w⟩) (Ok := fun s x => NoRace s.src x)
    (Busy := fun len g x => g.src.complete x = false ∧ (g.src.write x.1).unread < len - 16) name o none [] (fun len => Spec.sealed A nonce (file ++ appended w) len)
    (fun len => Unsought (Spec.sealed A nonce (file ++ appended w) len) len (SealAt ⟨nonce, file ++ appended w, len⟩ (GrowAt (file ++ appended w))))
    (fun len h1 h2 => Unsought.waits (sealing_delivers (fits len h1 h2)) (by omega) fun {k s} hs hk x hok hf => by
      rw [(sealed_blocks (A := A) (fits len h1 h2)).1] at hk
      rcases sealing_step (A := A) (fits len h1 h2) hk hs x hok with ⟨_, _, h⟩ | ⟨h, _⟩
      · refine ⟨h.1, ?_⟩
        have := h.2
        simp only at this ⊢
        omega
      · simp only [Source.fails, h, Option.isNone_some, Bool.false_eq_true] at hf)
    (fun len W h1 h2 => ⟨ReaderRel.init ⟨by rw [if_pos (by simp [pieces])], rfl, rfl, fun _ => by
      have : cut len 0 = 0 := by simp [cut]
      simp only [this]
      exact GrowAt.init hw (by simp only [if_true]; omega)⟩ _ _, kind_seeks v hp _ _ _⟩)
    (v.start ⟨.upload none [], name, o⟩ t) (is.map fun i => ({ i.1 with fail := false, wb := true }, i.2))
    (fun i hi => by
      obtain ⟨a, _, rfl⟩ := List.mem_map.1 hi
      rfl)
    (fun k hk => by
      have := hr k (by simpa using hk)
      simpa only [Cli.sealedGrowRun, Cli.runG, List.map_take, List.getElem_map] using this)
  refine ⟨len, ⟨hl.1, by omega⟩, js, by simpa using hj.length, fun k hk => ?_, hj.sent, hj.result, hj.block⟩
  obtain ⟨f, h1, h2⟩ := hj.input k (by simpa using hk)
  refine ⟨f, by simpa only [List.getElem_map] using h1, fun h => ?_⟩
  simpa only [Cli.sealedGrowRun, Cli.runG, List.map_take, List.getElem_map] using h2 h

/-! ### A small client

Nothing here models code. -/

instance {σ} (g : CliG σ) (P : σ → Prop) [DecidablePred P] : Decidable (g.srcIs P) :=
  match g with
  | .up _ _ _ s _ _ => inferInstanceAs (Decidable (P s.reader.src))
  | .plain _ => inferInstanceAs (Decidable False)

instance (g : Grow) (x : Nat × Nat) : Decidable (NoRace g x) :=
  inferInstanceAs (Decidable (finishes ((g.todo.drop x.1).take x.2) = true → appended ((g.todo.drop x.1).take x.2) = []))

instance {S} (v : Cli S) (g : Grow) (name : Bytes) (o : Opts) (t : Nat) (is : List (CliIn × Nat × Nat)) : Decidable (raceFree v g name o t is) :=
  inferInstanceAs (Decidable (∀ k (hk : k < is.length), ¬ (v.growRun g name o t (is.take k)).1.srcIs fun s => ¬ NoRace s is[k].2))

instance {S} (v : Cli S) (A : StreamAead) (nonce : Bytes) (g : Grow) (name : Bytes) (o : Opts) (t : Nat) (is : List (CliIn × Nat × Nat)) :
    Decidable (raceFreeSealed v A nonce g name o t is) :=
  inferInstanceAs (Decidable (∀ k (hk : k < is.length), ¬ (v.sealedGrowRun A nonce g name o t (is.take k)).1.srcIs fun s => ¬ NoRace s.src is[k].2))

namespace Toy

set_option maxRecDepth 20000

/-- The file is empty when the upload begins; then 300, 212 and 88 bytes are written, and the file is closed. -/
def writing : List BlkEv := [.append (content.take 300), .append ((content.drop 300).take 212), .append (content.drop 512), .finish]

/-- Two reads block: once there are no bytes at all, once 300; then the first block is sent. The end is read when the file has been closed. -/
def meanwhile : List (CliIn × Nat × Nat) :=
  [(hear 1 (.ack 0), 0, 0), (quiet 2, 0, 0), (quiet 3, 1, 0), (quiet 4, 1, 0), (hear 5 (.ack 1), 0, 0), (quiet 6, 1, 0), (quiet 7, 0, 1), (hear 8 (.ack 2), 0, 0)]

theorem writing_ok : Scribe false writing ∧ [] ++ appended writing = content := by
  refine ⟨⟨.inl rfl, .inl rfl, .inl rfl, trivial⟩, ?_⟩
  decide +kernel

example : raceFree (cli none) (Grow.new [] false writing) [97] plainOpts 0 meanwhile ∧
    bytesSent ((cli none).growRun (Grow.new [] false writing) [97] plainOpts 0 meanwhile).1.result = some 600 ∧
    ((cli none).growRun (Grow.new [] false writing) [97] plainOpts 0 meanwhile).2.tail.map (fun d => (d.2.take 4, d.2.length)) =
      [([0, 3, 0, 1], 516), ([0, 3, 0, 1], 516), ([0, 3, 0, 2], 92), ([0, 3, 0, 2], 92)] := by
  decide +kernel

/-- The same encrypted: the first piece has 475 bytes, the second one the other 125. -/
example : raceFreeSealed (cli none) mac nonce19 (Grow.new [] false writing) [97] plainOpts 0 meanwhile ∧
    bytesSent ((cli none).sealedGrowRun mac nonce19 (Grow.new [] false writing) [97] plainOpts 0 meanwhile).1.result = some 653 ∧
    ((cli none).sealedGrowRun mac nonce19 (Grow.new [] false writing) [97] plainOpts 0 meanwhile).2.tail.map (fun d => (d.2.take 4, d.2.length)) =
      [([0, 3, 0, 1], 516), ([0, 3, 0, 1], 516), ([0, 3, 0, 2], 145), ([0, 3, 0, 2], 145)] := by
  decide +kernel

/-- The client has returned a timeout. -/
def timedOut : Option (Except CliErr (Nat × Option Bytes)) → Bool
  | some (.error .timeout) => true
  | _ => false

/-- What the race does: the last 88 bytes are written, and the file is closed, after the reader has found nothing and before it looks at the flag. The client
reports success, after 512 bytes. -/
theorem c72_race_witness :
    ¬ raceFree (cli none) (Grow.new [] false writing) [97] plainOpts 0 [(hear 1 (.ack 0), 0, 0), (hear 2 (.ack 1), 2, 0), (hear 3 (.ack 2), 0, 2)] ∧
    bytesSent ((cli none).growRun (Grow.new [] false writing) [97] plainOpts 0 [(hear 1 (.ack 0), 0, 0), (hear 2 (.ack 1), 2, 0), (hear 3 (.ack 2), 0, 2)]).1.result =
      some 512 := by
  decide +kernel

/-- A writer which pauses longer than the request timeout (1000): the upload ends with a timeout, and the server keeps what it has. -/
theorem c72_slow_writer_witness :
    raceFree (cli none) (Grow.new [] false writing) [97] plainOpts 0 [(hear 1 (.ack 0), 0, 0), (hear 2 (.ack 1), 2, 0), (quiet 1500, 0, 0)] ∧
    timedOut ((cli none).growRun (Grow.new [] false writing) [97] plainOpts 0 [(hear 1 (.ack 0), 0, 0), (hear 2 (.ack 1), 2, 0), (quiet 1500, 0, 0)]).1.result = true := by
  decide +kernel

end Toy
end Tftp

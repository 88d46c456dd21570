import Verif.Sealed
import Verif.Client
/-
C56: a client which decrypts what it downloads (std-binary/src/receiver.rs:68-80: the writer given to `receive_file` is a `StreamWriter`).
-/
namespace Tftp
open Spec

/-- The data which `write_block` (src/writers/single_block_writer.rs:30-53) hands to its writer: it fails if and only if the writer does. -/
def Writer.offers (w : Writer) (block : Nat) (data : Bytes) : Option Bytes :=
  if (w.writeBlock block data .err).2 = .ioErr then some data else none

/-- The data which one iteration of the client (Client.lean) hands to the writer: src/client/receiver.rs:128-159 (first data packet) and
203-226. -/
def Cli.offers {S} (v : Cli S) (j : Job) (s : CliSt) (i : CliIn) : Option Bytes :=
  match s, i.recv with
  | .down c room ep s _ _, .dgram src dg =>
    match c.codec.dec (dg.take room) with
    | none => none
    | some b =>
      if src ≠ ep then none
      else match Packet.fromBytes b with
        | .ok (.data blk data) => s.w.offers blk.toNat data
        | _ => none
  | .query q, .dgram src dg =>
    let k := (v.initialSock j.opts).1
    match v.put k i.nonce i.sendOk (j.request q.exts), k.recv (dg.take q.room) with
    | some _, some b =>
      if src.ip ≠ v.cfg.endpoint.ip then none
      else if src ≠ v.cfg.endpoint ∧ v.cfg.allowPortChange = false then none
      else match v.reply j.write (v.requestOpts j) q.used q.initial b, j.task with
        | .accept _ o rk (some b), .download true =>
          match Packet.fromBytes b with
          | .ok (.data blk data) =>
            if b.length > (v.cfgOf (v.configure (v.initialSock j.opts).1 (j.opts.level ≠ .none) o rk) o).max then none
            else Writer.new.offers blk.toNat data
          | _ => none
        | _, _ => none
    | _, _ => none
  | _, _ => none

/-- The decrypting writer gets `d` (`none`: it is not called), its file behaves like `io`: the new state, and the result of `write`. -/
def StreamOut.handle (A : StreamAead) (o : StreamOut) (d : Option Bytes) (io : WriteIo) : StreamOut × WriteIo :=
  match d with
  | none => (o, io)
  | some d => match o.write A d io with
    | (o, .ok n) => (o, if n = d.length then .all else .upTo n)
    | (o, .error _) => (o, .err)

/-- One iteration of a client whose writer decrypts (std-binary/src/receiver.rs:68-80). Of the state of the client, the
file is now what the decrypting writer was given; the real one is in the `StreamOut`. -/
def Cli.sealedStep {S} (A : StreamAead) (v : Cli S) (j : Job) (x : CliSt × StreamOut) (i : CliIn) : (CliSt × StreamOut) × List (Ep × Bytes) :=
  let r := x.2.handle A (v.offers j x.1 i) i.file
  let y := v.step j x.1 { i with file := r.2 }
  ((y.1, r.1), y.2)

/-- Some iterations. -/
def Cli.sealedRun {S} (A : StreamAead) (v : Cli S) (j : Job) (x : CliSt × StreamOut) : List CliIn → CliSt × StreamOut
  | [] => x
  | i :: is => v.sealedRun A j (v.sealedStep A j x i).1 is

/-- What is handed to the decrypting writer in some iterations. -/
def Cli.handed {S} (A : StreamAead) (v : Cli S) (j : Job) (x : CliSt × StreamOut) : List CliIn → List Bytes
  | [] => []
  | i :: is => (v.offers j x.1 i).toList ++ v.handed A j (v.sealedStep A j x i).1 is

/-- Specification: nobody without the key has made `d`: neither it nor what follows a header decrypts, except where it is a piece of an upload. -/
def Spec.Genuine (A : StreamAead) (us : List Upload) (d : Bytes) : Prop := Unforged A us d ∧ Unforged A us (d.drop 21)

/-! ### Proofs -/

theorem offers_ok {w : Writer} {b : Nat} {d : Bytes} {io : WriteIo} {n i : Nat} (h : (w.writeBlock b d io).2 = .ok n i) :
    w.offers b d = some d ∧ ∃ t, io.taken d = some t ∧ n = t.length := by
  unfold Writer.offers
  simp only [Writer.writeBlock] at h ⊢
  split at h
  · cases h
  · rename_i h1
    rw [if_neg h1]
    split at h
    · cases h
    · rename_i h2
      rw [if_neg h2]
      split at h
      · cases h
      · rename_i t ht
        simp only [WRes.ok.injEq] at h
        exact ⟨by simp [WriteIo.taken], t, ht, h.1.symm⟩

theorem write_error_out {A : StreamAead} {s s' : StreamOut} {d : Bytes} {io : WriteIo} {e : StreamErr} (h : s.write A d io = (s', .error e)) :
    s'.out = s.out := by
  unfold StreamOut.write at h
  split at h
  · cases h; rfl
  · rename_i s1 f hp
    have h1 : s1.out = s.out := by
      unfold StreamOut.parse at hp
      split at hp
      · split at hp
        · cases hp
        · split at hp
          · cases hp
          · split at hp
            · cases hp
            · cases hp; rfl
      · cases hp; rfl
    split at h
    · simp only at h
      split at h
      · cases h; exact h1
      · split at h
        · cases h; exact h1
        · split at h
          · cases h
          · cases h; exact h1
    · cases h; exact h1

/-- The decrypting writer as long as it has not failed. -/
def Fed (us : List Upload) (o : StreamOut) : Prop := o = StreamOut.new ∨ ∃ u ∈ us, ∃ k, WroteAt u k o

/-- Always. -/
def Leading (us : List Upload) (o : StreamOut) : Prop := o.out = [] ∨ ∃ u ∈ us, ∃ k, k ≤ pieces u.file u.len ∧ o.out = u.file.take (cut u.len k)

theorem Fed.whole {us : List Upload} {o : StreamOut} (h : Fed us o) : Leading us o := by
  rcases h with rfl | ⟨u, hu, k, hk⟩
  · exact .inl rfl
  · exact .inr ⟨u, hu, k, hk.le, hk.out⟩

theorem handle_fed {A : StreamAead} {us : List Upload} (hus : ∀ u ∈ us, u.Fits) (hfr : Fresh us) {o : StreamOut} (ho : Fed us o) {d : Option Bytes}
    (hd : ∀ x ∈ d, Genuine A us x) {io : WriteIo} (hio : io = .all ∨ io = .err) :
    Leading us (o.handle A d io).1 ∧ ((o.handle A d io).2 = .all ∨ (o.handle A d io).2 = .err) ∧
    (d = none ∨ (o.handle A d io).2 = .all → Fed us (o.handle A d io).1) ∧
    ∀ x, d = some x → (o.handle A d io).2 = .all → (o.handle A d io).1.out ∈ us.map (·.file) ∨ ∃ u ∈ us, x.length = u.len := by
  cases d with
  | none => exact ⟨ho.whole, hio, fun _ => ho, fun x hx => nomatch hx⟩
  | some d =>
    obtain ⟨g1, g2⟩ := hd d rfl
    simp only [StreamOut.handle]
    cases hw : o.write A d io with
    | mk o' r =>
      cases r with
      | error e =>
        simp only
        refine ⟨?_, .inr trivial, fun h => ?_, fun x _ h => ?_⟩
        · rcases ho.whole with h | ⟨u, hu, k, hk, h⟩
          · exact .inl (by rw [write_error_out hw, h])
          · exact .inr ⟨u, hu, k, hk, by rw [write_error_out hw, h]⟩
        · rcases h with h | h <;> cases h
        · cases h
      | ok n =>
        simp only
        rcases ho with rfl | ⟨u, hu, k, hk⟩
        · obtain ⟨rfl, u, hu, hk, hn⟩ := write_first hus g2 hio hw
          rw [if_pos rfl]
          have hfed : Fed us o' := .inr ⟨u, hu, 1, hk⟩
          refine ⟨hfed.whole, .inl rfl, fun _ => hfed, fun x hx _ => ?_⟩
          cases hx
          by_cases hp : 1 < pieces u.file u.len
          · exact .inr ⟨u, hu, hn hp⟩
          · exact .inl (List.mem_map.2 ⟨u, hu, (hk.complete (hus u hu) (by have := hk.le; omega)).symm⟩)
        · obtain ⟨rfl, hlt, hk', hn⟩ := write_next hus hfr g1 hio hu hk hw
          rw [if_pos rfl]
          have hfed : Fed us o' := .inr ⟨u, hu, k + 1, hk'⟩
          refine ⟨hfed.whole, .inl rfl, fun _ => hfed, fun x hx _ => ?_⟩
          cases hx
          by_cases hp : k + 1 < pieces u.file u.len
          · exact .inr ⟨u, hu, hn hp⟩
          · exact .inl (List.mem_map.2 ⟨u, hu, (hk'.complete (hus u hu) (by have := hk'.le; omega)).symm⟩)

def CliSt.isDone : CliSt → Prop
  | .done _ _ => True
  | _ => False

/-- If the writer fails, the client ends. -/
theorem step_err {S} {v : Cli S} {j : Job} {s : CliSt} {i : CliIn} {d : Bytes} (h : v.offers j s i = some d) :
    (v.step j s { i with file := .err }).1.isDone := by
  unfold Cli.offers at h
  split at h
  · rename_i c room ep s t auth src dg hr
    split at h
    · cases h
    · rename_i b hb
      split at h
      · cases h
      · rename_i hsrc
        split at h
        · rename_i blk data hp
          have hw : (s.w.writeBlock blk.toNat data .err).2 = .ioErr := by
            unfold Writer.offers at h
            split at h
            · assumption
            · cases h
          simp only [Cli.step, Cli.downStep, hr, hb, clientRecv, hp, wrapWrite, hw, if_neg hsrc]
          trivial
        · cases h
  · rename_i q src dg hr
    simp only at h
    split at h
    · rename_i b0 b hb0 hb
      split at h
      · cases h
      · rename_i hip
        split at h
        · cases h
        · rename_i hep
          split at h
          · rename_i ack o rk b hrep htask
            split at h
            · rename_i blk data hp
              split at h
              · cases h
              · rename_i hmax
                have hw : (Writer.new.writeBlock blk.toNat data .err).2 = .ioErr := by
                  unfold Writer.offers at h
                  split at h
                  · assumption
                  · cases h
                simp only [Cli.step, Cli.queryStep, hb0, hr, hb, if_neg hip, if_neg hep, hrep, Cli.accepted, htask, firstData, hp, if_neg hmax,
                  wrapWrite, hw]
                trivial
            · cases h
          · cases h
    · cases h
  · cases h

theorem offers_none {w : Writer} {b : Nat} {d : Bytes} (h : w.offers b d = none) (io io' : WriteIo) : w.writeBlock b d io = w.writeBlock b d io' := by
  unfold Writer.offers at h
  simp only [Writer.writeBlock] at h ⊢
  split
  · rfl
  · rename_i h1
    split
    · rfl
    · rename_i h2
      rw [if_neg h1, if_neg h2] at h
      simp [WriteIo.taken] at h

/-- If nothing is handed to the writer, it does not matter what it would have done. -/
theorem step_none {S} {v : Cli S} {j : Job} {s : CliSt} {i : CliIn} (h : v.offers j s i = none) (io : WriteIo) :
    v.step j s { i with file := io } = v.step j s i := by
  cases s with
  | up => rfl
  | done => rfl
  | down c room ep s since auth =>
    simp only [Cli.step, Cli.downStep]
    simp only [Cli.offers] at h
    cases hr : i.recv with
    | error => rfl
    | wouldBlock => rfl
    | dgram src dg =>
      rw [hr] at h
      simp only at h ⊢
      split
      · rfl
      · split
        · rfl
        · rename_i hb hsrc
          obtain ⟨b, hb⟩ : ∃ b, c.codec.dec (dg.take room) = some b := by
            cases hx : c.codec.dec (dg.take room) with
            | none => rw [hx] at hb; exact absurd rfl hb
            | some b => exact ⟨b, rfl⟩
          rw [hb] at h
          simp only [if_neg hsrc] at h
          have : clientRecv c s (dg.take room) io i.sendOk i.nonce = clientRecv c s (dg.take room) i.file i.sendOk i.nonce := by
            simp only [clientRecv, hb]
            split
            · rename_i blk data hp
              rw [hp] at h
              rw [wrapWrite, wrapWrite, offers_none h io i.file]
            · rfl
            · rfl
          rw [this]
  | query q =>
    simp only [Cli.step, Cli.queryStep]
    simp only [Cli.offers] at h
    cases hput : v.put (v.initialSock j.opts).1 i.nonce i.sendOk (j.request q.exts) with
    | none => rfl
    | some req =>
      cases hr : i.recv with
      | error => rfl
      | wouldBlock => rfl
      | dgram src dg =>
        rw [hr] at h
        simp only [hput] at h ⊢
        cases hb : (v.initialSock j.opts).1.recv (dg.take q.room) with
        | none => rfl
        | some b =>
          rw [hb] at h
          simp only at h ⊢
          split
          · rfl
          · rename_i hip
            rw [if_neg hip] at h
            split
            · rfl
            · rename_i hport
              rw [if_neg hport] at h
              cases hrep : v.reply j.write (v.requestOpts j) q.used q.initial b with
              | fail => rfl
              | again => rfl
              | accept ack o rk first =>
                rw [hrep] at h
                simp only [Cli.accepted]
                cases htask : j.task with
                | upload => rfl
                | download ok =>
                  cases first with
                  | none => rfl
                  | some b =>
                    cases ok with
                    | false => rfl
                    | true =>
                      rw [htask] at h
                      simp only at h
                      have : ∀ c : Cfg, c.max = (v.cfgOf (v.configure (v.initialSock j.opts).1 (j.opts.level ≠ .none) o rk) o).max →
                          ∀ s : RecvSt, s.w = Writer.new → firstData c s b io i.sendOk i.nonce2 = firstData c s b i.file i.sendOk i.nonce2 := by
                        intro c hc s hs
                        unfold firstData
                        split
                        · rename_i blk data hp
                          split
                          · rfl
                          · rename_i hmax
                            rw [hp] at h
                            simp only [← hc, if_neg hmax] at h
                            rw [hs, wrapWrite, wrapWrite, offers_none h io i.file]
                        · rfl
                      simp only [this (v.cfgOf (v.configure (v.initialSock j.opts).1 (j.opts.level ≠ .none) o rk) o) rfl ⟨Writer.new, 0, 0, false, false⟩ rfl]

theorem sealed_inv {S} {A : StreamAead} {v : Cli S} {j : Job} {us : List Upload} (hus : ∀ u ∈ us, u.Fits) (hfr : Fresh us)
    {x : CliSt × StreamOut} {i : CliIn} (hx : Leading us x.2 ∧ (¬ x.1.isDone → Fed us x.2)) (hd : ∀ d ∈ v.offers j x.1 i, Genuine A us d)
    (hio : i.file = .all ∨ i.file = .err) :
    Leading us (v.sealedStep A j x i).1.2 ∧ (¬ (v.sealedStep A j x i).1.1.isDone → Fed us (v.sealedStep A j x i).1.2) := by
  obtain ⟨s, o⟩ := x
  by_cases hdone : s.isDone
  · cases s <;> try exact hdone.elim
    exact ⟨hx.1, fun h => (h trivial).elim⟩
  · obtain ⟨h1, h2, h3, h4⟩ := handle_fed hus hfr (hx.2 hdone) hd hio
    refine ⟨h1, fun hn => ?_⟩
    rcases h2 with h2 | h2
    · exact h3 (.inr h2)
    · cases ho : v.offers j s i with
      | none => exact h3 (.inl ho)
      | some d =>
        exfalso
        apply hn
        have := step_err ho
        simp only [Cli.sealedStep, h2]
        exact this

/-- **C56**: whatever the server, the network and strangers do, the file which a client writes with `encryption_key` holds nothing but whole
pieces, from the beginning, of one of the files which were encrypted with that key. Neither a block of another file, nor changed, missing or
repeated blocks get into it. The conditions: blocks which decrypt come from the uploads `us` (which have different nonces), and a write to the local file
takes everything or fails (see `c10_short_write_loses_bytes`). -/
theorem c56_only_genuine {S} {A : StreamAead} {v : Cli S} {j : Job} {us : List Upload} (hus : ∀ u ∈ us, u.Fits) (hfr : Fresh us) (t : Nat)
    (is : List CliIn) (hio : ∀ i ∈ is, i.file = .all ∨ i.file = .err)
    (hd : ∀ d ∈ v.handed A j (.query (v.start j t), StreamOut.new) is, Genuine A us d) :
    let out := (v.sealedRun A j (.query (v.start j t), StreamOut.new) is).2.out
    out = [] ∨ ∃ u ∈ us, ∃ k, k ≤ pieces u.file u.len ∧ out = u.file.take (cut u.len k) := by
  have key : ∀ (is : List CliIn) (x : CliSt × StreamOut), (Leading us x.2 ∧ (¬ x.1.isDone → Fed us x.2)) → (∀ i ∈ is, i.file = .all ∨ i.file = .err) →
      (∀ d ∈ v.handed A j x is, Genuine A us d) → Leading us (v.sealedRun A j x is).2 := by
    intro is
    induction is with
    | nil => exact fun x hx _ _ => hx.1
    | cons i is ih =>
      intro x hx hio hd
      simp only [Cli.handed, List.mem_append, Option.mem_toList] at hd
      refine ih _ (sealed_inv hus hfr hx (fun d h => hd d (.inl h)) (hio i (by simp))) (fun i h => hio i (by simp [h])) (fun d h => hd d (.inr h))
  exact key is _ ⟨.inl rfl, fun _ => .inl rfl⟩ hio hd

/-- The receiving loop with agreed block size `bs`. -/
def Receives (us : List Upload) (bs : Nat) : CliSt × StreamOut → Prop
  | (.down c _ _ s _ _, o) => c.bs = bs ∧ s.finished = false ∧ Fed us o
  | (.done (.ok _) _, o) => o.out ∈ us.map (·.file)
  | (.done (.error _) _, _) => True
  | _ => False

theorem clientRecv_finished {c : Cfg} {s : RecvSt} {dg : Bytes} {io : WriteIo} {ok : Bool} {nonce : Nat} (h0 : s.finished = false)
    (h : (clientRecv c s dg io ok nonce).1.finished = true) :
    ∃ b blk data n k, c.codec.dec dg = some b ∧ Packet.fromBytes b = .ok (.data blk data) ∧ (s.w.writeBlock blk.toNat data io).2 = .ok n k ∧ n < c.bs := by
  unfold clientRecv at h
  split at h
  · simp_all
  · rename_i b hb
    split at h
    · rename_i blk data hp
      cases hw : (s.w.writeBlock blk.toNat data io).2 with
      | ok n k =>
        refine ⟨b, blk, data, n, k, hb, hp, hw, ?_⟩
        simp only [wrapWrite, hw] at h
        split at h
        · simp_all
        · split at h
          · split at h <;> simp_all
          · simp_all
      | already x y =>
        simp only [wrapWrite, hw] at h
        split at h
        · simp_all
        · split at h
          · split at h <;> simp_all
          · simp_all
      | expected x y =>
        simp only [wrapWrite, hw] at h
        split at h
        · simp_all
        · split at h
          · split at h <;> simp_all
          · simp_all
      | ioErr =>
        simp only [wrapWrite, hw] at h
        simp_all
    · simp_all
    · simp_all

theorem receives_step {S} {A : StreamAead} {v : Cli S} {j : Job} {us : List Upload} (hus : ∀ u ∈ us, u.Fits) (hfr : Fresh us) {bs : Nat}
    (hbs : ∀ u ∈ us, bs ≤ u.len) {x : CliSt × StreamOut} {i : CliIn} (hx : Receives us bs x) (hd : ∀ d ∈ v.offers j x.1 i, Genuine A us d)
    (hio : i.file = .all ∨ i.file = .err) : Receives us bs (v.sealedStep A j x i).1 := by
  obtain ⟨s, o⟩ := x
  cases s with
  | query q => cases hx
  | up => cases hx
  | done r f =>
    cases r with
    | error e => exact hx
    | ok r => exact hx
  | down c room ep s since auth =>
    obtain ⟨hc, hfin, hfed⟩ := hx
    obtain ⟨h1, h2, h3, h4⟩ := handle_fed hus hfr hfed hd hio
    have hinv := sealed_inv (x := (.down c room ep s since auth, o)) hus hfr ⟨hfed.whole, fun _ => hfed⟩ hd hio
    generalize hr : o.handle A (v.offers j (.down c room ep s since auth) i) i.file = r at *
    obtain ⟨o', io⟩ := r
    have hfed' : ¬ (v.step j (.down c room ep s since auth) { i with file := io }).1.isDone → Fed us o' := by
      have := hinv.2
      simp only [Cli.sealedStep, hr] at this
      exact this
    simp only [Cli.sealedStep, hr]
    generalize hst : v.step j (.down c room ep s since auth) { i with file := io } = st at *
    simp only [Cli.step, Cli.downStep] at hst
    split at hst
    · subst hst; trivial
    · split at hst
      · subst hst; trivial
      · subst hst; exact ⟨hc, hfin, hfed' (fun h => h)⟩
    · rename_i src dg hrecv
      split at hst
      · subst hst; trivial
      · split at hst
        · subst hst; exact ⟨hc, hfin, hfed' (fun h => h)⟩
        · split at hst
          · subst hst; trivial
          · rename_i hsrc hnf
            split at hst
            · subst hst
              rename_i hfin'
              obtain ⟨b, blk, data, n, k, hb, hp, hok, hn⟩ := clientRecv_finished hfin hfin'
              have hof : v.offers j (.down c room ep s since auth) i = s.w.offers blk.toNat data := by
                simp only [Cli.offers, hrecv, hb, if_neg hsrc, hp]
              obtain ⟨g1, t, g2, g3⟩ := offers_ok hok
              rw [g1] at hof
              have hall : io = .all := by
                rcases h2 with h2 | h2
                · exact h2
                · simp only at h2; subst h2; cases g2
              rcases h4 data hof hall with h | ⟨u, hu, h⟩
              · exact h
              · exfalso
                subst hall
                simp only [WriteIo.taken, Option.some.injEq] at g2
                have := hbs u hu
                subst g2
                omega
            · rename_i hnfin
              subst hst
              exact ⟨hc, by simpa using hnfin, hfed' (fun h => h)⟩

/-- **C57**: a download with `encryption_key` which, from the beginning of its receiving loop, ends with success has written one of the encrypted
files completely, if the agreed block size is not larger than that of the encrypted file. Without this condition the file may be cut
(`Toy.c57_server_truncates`). -/
theorem c57_success_is_complete_partial {S} {A : StreamAead} {v : Cli S} {j : Job} {us : List Upload} (hus : ∀ u ∈ us, u.Fits) (hfr : Fresh us)
    {c : Cfg} (hbs : ∀ u ∈ us, c.bs ≤ u.len) (room : Nat) (ep : Ep) (since : Nat) (auth : Option Bytes)
    (is : List CliIn) (hio : ∀ i ∈ is, i.file = .all ∨ i.file = .err)
    (hd : ∀ d ∈ v.handed A j (.down c room ep ⟨Writer.new, 0, 0, false, false⟩ since auth, StreamOut.new) is, Genuine A us d)
    {n : Nat × Option Bytes} {f : Bytes} {o : StreamOut}
    (h : v.sealedRun A j (.down c room ep ⟨Writer.new, 0, 0, false, false⟩ since auth, StreamOut.new) is = (.done (.ok n) f, o)) :
    ∃ u ∈ us, o.out = u.file := by
  have key : ∀ (is : List CliIn) (x : CliSt × StreamOut), Receives us c.bs x → (∀ i ∈ is, i.file = .all ∨ i.file = .err) →
      (∀ d ∈ v.handed A j x is, Genuine A us d) → Receives us c.bs (v.sealedRun A j x is) := by
    intro is
    induction is with
    | nil => exact fun x hx _ _ => hx
    | cons i is ih =>
      intro x hx hio hd
      simp only [Cli.handed, List.mem_append, Option.mem_toList] at hd
      exact ih _ (receives_step hus hfr hbs hx (fun d h => hd d (.inl h)) (hio i (by simp))) (fun i h => hio i (by simp [h])) (fun d h => hd d (.inr h))
  have := key is (.down c room ep ⟨Writer.new, 0, 0, false, false⟩ since auth, StreamOut.new) ⟨rfl, rfl, .inl rfl⟩ hio hd
  rw [h] at this
  obtain ⟨u, hu, e⟩ := List.mem_map.1 this
  exact ⟨u, hu, e.symm⟩

end Tftp

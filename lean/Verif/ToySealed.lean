import Verif.ToyEnd
import Verif.SealedEnd
/-
C56 on a small client and server. Nothing here models code.
-/
namespace Tftp
namespace Toy
open Spec

set_option maxRecDepth 20000

def nonce19 : Bytes := List.replicate 19 5

/-- Tags which tell position, end and length for one nonce. -/
def tagOf (n : Bytes) (i : Nat) (l : Bool) (len : Nat) : Bytes :=
  (if n = nonce19 ∧ i < 200 ∧ len < 65536 then [1, UInt8.ofNat i, if l then 1 else 0, UInt8.ofNat (len / 256), UInt8.ofNat (len % 256)] else [2, 0, 0, 0, 0]) ++
    List.replicate 11 0

theorem tagOf_length (n : Bytes) (i : Nat) (l : Bool) (len : Nat) : (tagOf n i l len).length = 16 := by
  unfold tagOf
  split <;> simp

def mac : StreamAead where
  enc n i l p := p ++ tagOf n i l p.length
  dec n i l c := if c.length < 16 ∨ c.drop (c.length - 16) ≠ tagOf n i l (c.length - 16) then none else some (c.take (c.length - 16))
  enc_length n i l p := by simp [tagOf_length]
  dec_enc n i l p := by simp [tagOf_length]
  dec_length n i l c p h := by
    split at h
    · cases h
    · rename_i hn
      simp only [Option.some.injEq] at h
      rw [← h, List.length_take]
      omega

/-- `content`, encrypted in blocks of 471 bytes. -/
def vault : Upload := ⟨nonce19, content, 471⟩

/-- A short one. -/
def note : Upload := ⟨nonce19, content.take 100, 471⟩

theorem vault_fits : vault.Fits := ⟨by decide, by decide, by decide +kernel⟩

def ioOf (u : Upload) : NewIo := { boxIo with openRead := fun _ => some (none, Spec.sealed mac u.nonce u.file u.len) }

theorem ioOf_os (j : Job) (b : Bool) {u : Upload} (h : (Spec.sealed mac u.nonce u.file u.len).length ≤ 26000000) :
    Os (⟨boxSrv, boxCli, j, b⟩ : Parties sig) none (ioOf u) where
  key := show (List.replicate 32 (3 : UInt8)).length = 32 by decide
  exchange := rfl
  size _ n _ h := by simp [ioOf] at h
  small _ _ _ _ h' := by
    simp only [ioOf, Option.some.injEq, Prod.mk.injEq] at h'
    rw [← h'.2]
    exact h

/-! ### Checked runs -/

def sealedPlay {S} (v : Parties S) (io : NewIo) : World × StreamOut → List Move → World × StreamOut
  | x, [] => x
  | x, m :: ms => sealedPlay v io (v.sealedStep mac x (m.event x.1 io)) ms

def here? : Move → Bool
  | .start _ a => decide (a = sock)
  | _ => true

def sizeOk (u : Upload) (w : World) : Bool := match w.conns sock with
  | some c => decide (c.opts.payload = u.len)
  | none => true

def sealedLegal {S} (v : Parties S) (u : Upload) : World × StreamOut → List Move → Bool
  | _, [] => true
  | x, m :: ms => m.okay v x.1 (ioOf u) && here? m && sizeOk u (v.sealedStep mac x (m.event x.1 (ioOf u))).1 && sealedLegal v u (v.sealedStep mac x (m.event x.1 (ioOf u))) ms

/-- Only one socket, and only one file, are used. -/
structure Only (u : Upload) (w : World) : Prop where
  conns : ∀ e, e ≠ sock → w.conns e = none
  live : w.live = none ∨ w.live = some sock
  started : ∀ x ∈ w.started, x.2 = ioOf u

theorem only_step {S} {v : Parties S} {u : Upload} {x : World × StreamOut} (h : Only u x.1) {m : Move} (hm : here? m = true) :
    Only u (v.sealedStep mac x (m.event x.1 (ioOf u))).1 := by
  have srv : ∀ e : LifeEv, (∀ y ∈ e.opened sock, y.2 = ioOf u) → Only u (v.step x.1 (.server sock e)) := by
    intro e he
    obtain ⟨h1, h2, h3⟩ := h
    simp only [Parties.step]
    split
    · rename_i l hl
      have : l = sock := by
        rcases h2 with h2 | h2
        · rw [h2] at hl; cases hl
        · rw [h2] at hl; cases hl; rfl
      subst this
      split
      · exact ⟨h1, h2, h3⟩
      · split
        · refine ⟨fun e he => ?_, h2, h3⟩
          simp only [setAt, if_neg he, h1 e he]
        · exact ⟨h1, .inl rfl, h3⟩
    · split
      · refine ⟨fun e he => ?_, .inr rfl, fun y hy => ?_⟩
        · simp only [setAt, if_neg he, h1 e he]
        · rcases List.mem_append.mp hy with hy | hy
          · exact he y hy
          · exact h3 y hy
      · exact ⟨h1, h2, h3⟩
  cases m with
  | start k a =>
    simp only [here?, decide_eq_true_eq] at hm
    subst hm
    exact srv (.start 0 _ (ioOf u)) (by intro y hy; simp only [LifeEv.opened, List.mem_singleton] at hy; rw [hy])
  | tick => exact srv _ (by simp [LifeEv.opened])
  | recv k => exact srv _ (by simp [LifeEv.opened])
  | check => exact srv _ (by simp [LifeEv.opened])
  | quiet => exact ⟨h.1, h.2, h.3⟩
  | hear k => exact ⟨h.1, h.2, h.3⟩

theorem sealedPlay_reach {S} {v : Parties S} {u : Upload} (hf : u.Fits) (hos : Os v none (ioOf u)) {x : World × StreamOut}
    (hx : SealedReach mac v [u] none x) (ho : Only u x.1) {ms : List Move} (h : sealedLegal v u x ms = true) :
    SealedReach mac v [u] none (sealedPlay v (ioOf u) x ms) := by
  induction ms generalizing x with
  | nil => exact hx
  | cons m ms ih =>
    simp only [sealedLegal, Bool.and_eq_true] at h
    obtain ⟨⟨⟨h1, h2⟩, h3⟩, h4⟩ := h
    have ho' := only_step (v := v) ho h2
    refine ih (.step x _ hx (okay_allowed hos h1) ?_) ho' h4
    intro e c file hc hsv
    refine ⟨u, by simp, hf, ?_, ?_⟩
    · by_cases he : e = sock
      · subst he
        simp only [sizeOk, hc, decide_eq_true_eq] at h3
        exact h3.symm
      · rw [ho'.conns e he] at hc; cases hc
    · obtain ⟨name, io, size, -, s2, s3⟩ := hsv
      have := ho'.started _ s2
      simp only at this
      subst this
      simp only [ioOf, Option.some.injEq, Prod.mk.injEq] at s3
      exact s3.2.symm

/-- C56: an encrypted download of an encrypted file of two blocks, with repeated datagrams. The client counts the encrypted bytes. -/
example : Honest (fetchIt .protocol) none ∧
    SealedReach mac (fetchIt .protocol) [vault] none (sealedPlay (fetchIt .protocol) (ioOf vault) ((fetchIt .protocol).init 0, StreamOut.new) fetching) ∧
    (result (sealedPlay (fetchIt .protocol) (ioOf vault) ((fetchIt .protocol).init 0, StreamOut.new) fetching).1.cli).map (·.1) = some 653 ∧
    (sealedPlay (fetchIt .protocol) (ioOf vault) ((fetchIt .protocol).init 0, StreamOut.new) fetching).2.out = content :=
  ⟨fetchIt_honest, sealedPlay_reach vault_fits (ioOf_os _ _ (by decide +kernel)) (.init 0) ⟨fun _ _ => rfl, .inl rfl, (fun _ h => nomatch h)⟩ (by decide +kernel),
    by decide +kernel, by decide +kernel⟩

/-! ### Any block size -/

/-- `c` is an encrypted piece of `u`, or has no tag which fits its length. -/
def genuine (u : Upload) (c : Bytes) : Bool :=
  let t := c.drop (c.length - 16)
  decide (c.length < 16) || (decide (t.head? ≠ some 2) && decide (t[3]? ≠ some (UInt8.ofNat ((c.length - 16) / 256)) ∨ t[4]? ≠ some (UInt8.ofNat ((c.length - 16) % 256)))) ||
  (List.range (pieces u.file u.len)).any fun k => decide (c = sealedPiece mac u.nonce u.file u.len k)

theorem unforged_of_genuine {u : Upload} (hn : u.nonce = nonce19) (hp : pieces u.file u.len ≤ 200) (hl : u.len ≤ 1425) {c : Bytes} (h : genuine u c = true) :
    Unforged mac [u] c := by
  intro n i l p hd
  simp only [mac] at hd
  split at hd
  · cases hd
  rename_i hd'
  simp only [not_or, Classical.not_not, ne_eq, Nat.not_lt] at hd'
  obtain ⟨h16, ht⟩ := hd'
  simp only [Option.some.injEq] at hd
  simp only [genuine, Bool.or_eq_true, Bool.and_eq_true, decide_eq_true_eq, List.any_eq_true, List.mem_range] at h
  rcases h with (h | ⟨h1, h2⟩) | ⟨k, hk, h⟩
  · omega
  · exfalso
    rw [ht] at h1 h2
    unfold tagOf at h1 h2
    split at h1
    · rename_i hc
      rw [if_pos hc] at h2
      simp at h2
    · simp at h1
  · have hlen : (piece u.file u.len k).length < 65536 := by
      unfold piece
      rw [List.drop_take, List.length_take]
      have := Nat.min_le_left (cut u.len (k + 1) - cut u.len k) (u.file.drop (cut u.len k)).length
      unfold cut at this ⊢
      rw [Nat.succ_mul] at this ⊢
      omega
    have hc : c.length - 16 = (piece u.file u.len k).length := by
      rw [h, sealedPiece, mac.enc_length]; omega
    have hcd : c.drop (c.length - 16) = tagOf u.nonce k (decide (k + 1 = pieces u.file u.len)) (piece u.file u.len k).length := by
      rw [hc, h]
      simp [sealedPiece, mac]
    have hct : c.take (c.length - 16) = piece u.file u.len k := by
      rw [hc, h]
      simp [sealedPiece, mac]
    rw [hcd, hc] at ht
    unfold tagOf at ht
    rw [if_pos ⟨hn, by omega, hlen⟩] at ht
    by_cases hc : n = nonce19 ∧ i < 200 ∧ (piece u.file u.len k).length < 65536
    · rw [if_pos hc] at ht
      simp only [List.cons_append, List.nil_append, List.cons.injEq, true_and] at ht
      obtain ⟨t1, t2, -⟩ := ht
      have hki : k = i := by
        have := congrArg UInt8.toNat t1
        simp only [UInt8.toNat_ofNat'] at this
        omega
      subst hki
      refine ⟨u, by simp, by rw [hn, hc.1], hk, ?_, by rw [← hd, hct]⟩
      cases l <;> by_cases hx : k + 1 = pieces u.file u.len <;> simp_all
    · rw [if_neg hc] at ht
      simp at ht

def anyLegal {S} (v : Parties S) (u : Upload) : World × StreamOut → List Move → Bool
  | _, [] => true
  | x, m :: ms => m.okay v x.1 (ioOf u) && here? m &&
      (match m.event x.1 (ioOf u) with
        | .client i => (v.cli.offers v.job x.1.cli i).toList.all fun d => genuine u d && genuine u (d.drop 21)
        | _ => true) && anyLegal v u (v.sealedStep mac x (m.event x.1 (ioOf u))) ms

theorem anyPlay_reach {S} {v : Parties S} {u : Upload} (hn : u.nonce = nonce19) (hp : pieces u.file u.len ≤ 200) (hl : u.len ≤ 1425)
    (hos : Os v none (ioOf u)) {x : World × StreamOut}
    (hx : SealedReachAny mac v [u] none x) (ho : Only u x.1) {ms : List Move} (h : anyLegal v u x ms = true) :
    SealedReachAny mac v [u] none (sealedPlay v (ioOf u) x ms) := by
  induction ms generalizing x with
  | nil => exact hx
  | cons m ms ih =>
    simp only [anyLegal, Bool.and_eq_true] at h
    obtain ⟨⟨⟨h1, h2⟩, h3⟩, h4⟩ := h
    have ho' := only_step (v := v) ho h2
    refine ih (.step x _ hx (okay_allowed hos h1) ?_ ?_) ho' h4
    · intro e file hsv
      refine ⟨u, by simp, ?_⟩
      obtain ⟨name, io, size, -, s2, s3⟩ := hsv
      have := ho'.started _ s2
      simp only at this
      subst this
      simp only [ioOf, Option.some.injEq, Prod.mk.injEq] at s3
      exact s3.2.symm
    · intro i hi d hd
      rw [hi] at h3
      simp only [List.all_eq_true, Bool.and_eq_true] at h3
      obtain ⟨g1, g2⟩ := h3 d (by rw [hd]; simp)
      exact ⟨unforged_of_genuine hn hp hl g1, unforged_of_genuine hn hp hl g2⟩

theorem plainFetch_honest : Honest (fetchIt .none) none where
  maxBlock := by decide
  maxWindow := by decide
  sessionPub := by decide
  handshakePub := by decide
  name := show Spec.Text [97] from ⟨by decide, by decide⟩
  blockSize := by decide
  window := by decide
  retry := by decide
  size n h := by
    have : n = 0 := by simpa [fetchIt] using h.symm
    omega
  known _ h := nomatch h
  plain e _ := rfl
  task := .inr rfl
  late _ h := nomatch h

def fetchShort : List Move := [.quiet, .start 0, .hear 0, .tick, .hear 0, .hear 0]

/-- C56: a short file which was encrypted in blocks of 471 bytes, downloaded in blocks of 512 bytes. -/
example : Honest (fetchIt .none) none ∧ (∀ u ∈ [note], u.Fits) ∧ Fresh [note] ∧
    SealedReachAny mac (fetchIt .none) [note] none (sealedPlay (fetchIt .none) (ioOf note) ((fetchIt .none).init 0, StreamOut.new) fetchShort) ∧
    (result (sealedPlay (fetchIt .none) (ioOf note) ((fetchIt .none).init 0, StreamOut.new) fetchShort).1.cli).map (·.1) = some 137 ∧
    (sealedPlay (fetchIt .none) (ioOf note) ((fetchIt .none).init 0, StreamOut.new) fetchShort).2.out = content.take 100 := by
  refine ⟨plainFetch_honest, ?_, ?_, anyPlay_reach rfl (by decide +kernel) (by decide) (ioOf_os _ _ (by decide +kernel)) (.init 0)
    ⟨fun _ _ => rfl, .inl rfl, (fun _ h => nomatch h)⟩ (by decide +kernel), by decide +kernel, by decide +kernel⟩
  · intro u hu
    simp only [List.mem_singleton] at hu
    subst hu
    exact ⟨by decide, by decide, by decide +kernel⟩
  · intro a ha b hb _
    simp only [List.mem_singleton] at ha hb
    rw [ha, hb]

/-- C56: the longer file in blocks of 512 bytes: the download fails, nothing is written. -/
example : failure (sealedPlay (fetchIt .none) (ioOf vault) ((fetchIt .none).init 0, StreamOut.new) fetchShort).1.cli = some .io ∧
    (sealedPlay (fetchIt .none) (ioOf vault) ((fetchIt .none).init 0, StreamOut.new) fetchShort).2.out = [] := by
  decide +kernel

/-! ### Finding -/

/-- What a dishonest server answers: it accepts blocks of 512 bytes, and sends one block, the first of the encrypted file, of 471 bytes. -/
def cheat : List CliIn := [quiet 0, hears 0 sock (((play (fetchIt .none) ((fetchIt .none).init 0) [.quiet, .start 0]).down.head?.map (·.bytes)).getD []),
  hears 0 sock ([0, 3, 0, 1] ++ sealedBlock mac vault 0)]

/-- **C57**, finding: a server which does not have the key can cut an encrypted file: everything it sends is genuine, and the client reports success although
it has not received the last piece. -/
theorem c57_server_truncates :
    let x := (.query (boxCli.start (fetchIt .none).job 0), StreamOut.new)
    (boxCli.handed mac (fetchIt .none).job x cheat).all (fun d => genuine vault d && genuine vault (d.drop 21)) = true ∧
    (result (boxCli.sealedRun mac (fetchIt .none).job x cheat).1).map (·.1) = some 471 ∧
    (boxCli.sealedRun mac (fetchIt .none).job x cheat).2.out = content.take 434 ∧ vault.file = content ∧ content.length = 600 := by
  decide +kernel

/-- C56: the run of `c57_server_truncates` meets the assumptions of `c56_only_genuine`. -/
example : (∀ u ∈ [vault], u.Fits) ∧ Fresh [vault] ∧ (∀ i ∈ cheat, i.file = .all ∨ i.file = .err) ∧
    ∀ d ∈ boxCli.handed mac (fetchIt .none).job (.query (boxCli.start (fetchIt .none).job 0), StreamOut.new) cheat, Genuine mac [vault] d := by
  refine ⟨?_, ?_, ?_, ?_⟩
  · intro u hu
    simp only [List.mem_singleton] at hu
    subst hu
    exact vault_fits
  · intro a ha b hb _
    simp only [List.mem_singleton] at ha hb
    rw [ha, hb]
  · intro i hi
    simp only [cheat, List.mem_cons, List.not_mem_nil, or_false] at hi
    rcases hi with rfl | rfl | rfl <;> exact .inl rfl
  · intro d hd
    have := c57_server_truncates.1
    simp only [List.all_eq_true, Bool.and_eq_true] at this
    obtain ⟨g1, g2⟩ := this d hd
    exact ⟨unforged_of_genuine rfl (by decide +kernel) (by decide) g1, unforged_of_genuine rfl (by decide +kernel) (by decide) g2⟩

end Toy
end Tftp

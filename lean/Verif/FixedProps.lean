import Verif.FixedServer
/-
C88: the theorems about the memory of the server in builds without allocator.
-/
namespace Tftp
open Spec
variable {V : Type}

/-- The connections as their clients see them: each download with the reader which is found under its handle. -/
def Mem.view (s : Mem V) : Conns V :=
  s.clients.map fun e => (e.1, match e.2 with
    | none => none
    | some (k, i) => match (s.pools k).get i with
      | some v => some (k, v)
      | none => none)

theorem view_eq (s : Mem V) : s.view = s.clients.map (seen s.pools) := by
  unfold Mem.view
  apply List.map_congr_left
  intro e _
  obtain ⟨a, x⟩ := e
  cases x with
  | none => rfl
  | some y =>
    obtain ⟨k, i⟩ := y
    simp only [seen, Option.bind_some, readerOf]
    cases (s.pools k).get i <;> rfl

theorem reach_inv (c : Caps) (hcap : ∀ k, c.cap k < 65535) (es : List (MemEv V)) :
    MemInv c ((Mem.init V).run c es).1 (Conns.run c [] es).1 ∧ ((Mem.init V).run c es).2 = (Conns.run c [] es).2 :=
  run_inv (by unfold poolKeys; exact hcap) es (MemInv.init c)

/-- **C88**: in every history the server with its table and its three pools behaves, for every client, like one in which each connection
owns its reader: the same answers, the same connections, and every reader is as its own client left it. -/
theorem c88_refines (c : Caps) (hcap : ∀ k, c.cap k < 65535) (es : List (MemEv V)) :
    ((Mem.init V).run c es).2 = (Conns.run c [] es).2 ∧ ((Mem.init V).run c es).1.view = (Conns.run c [] es).1 := by
  obtain ⟨h1, h2⟩ := reach_inv c hcap es
  exact ⟨h2, by rw [view_eq]; exact h1.abs.symm⟩

theorem conns_no_panic (c : Caps) (es : List (MemEv V)) : ∀ l : Conns V, MemOut.panic ∉ (Conns.run c l es).2 := by
  induction es with
  | nil => intro l h; cases h
  | cons e es ih =>
    intro l h
    simp only [Conns.run, List.mem_cons] at h
    rcases h with h | h
    · cases e with
      | sweep keep => cases h
      | use a f => cases h
      | download a ready window make accepted =>
        simp only [Conns.step] at h
        split at h
        · cases h
        · split at h
          · cases h
          · split at h
            · unfold Conns.join at h
              split at h <;> cases h
            · cases h
      | upload a ready accepted =>
        simp only [Conns.step] at h
        split at h
        · cases h
        · unfold Conns.join at h
          split at h <;> cases h
    · exact ih _ h

/-- **C88**: no history makes the server panic: the reader of a live download is always in its pool (`expect("reader does not exist")`) and
counting the readers which are left never underflows. -/
theorem c88_no_panic (c : Caps) (hcap : ∀ k, c.cap k < 65535) (es : List (MemEv V)) : MemOut.panic ∉ ((Mem.init V).run c es).2 := by
  rw [(c88_refines c hcap es).1]
  exact conns_no_panic c es []

/-- **C88**: no reader is lost or kept: in every reachable state each pool holds exactly as many readers as there are downloads with a reader
of this kind, no two downloads have the same slot, and each slot is filled. -/
theorem c88_no_leak (c : Caps) (hcap : ∀ k, c.cap k < 65535) (es : List (MemEv V)) (k : Kind) :
    (((Mem.init V).run c es).1.pools k).length =
      (((Mem.init V).run c es).1.clients.filter fun e => e.2.map (·.1) == some k).length ∧
    (((Mem.init V).run c es).1.clients.filterMap (·.2)).Nodup ∧
    (∀ a i, (a, some (k, i)) ∈ ((Mem.init V).run c es).1.clients → ((((Mem.init V).run c es).1.pools k).get i).isSome) ∧
    (((Mem.init V).run c es).1.pools k).length ≤ c.cap k := by
  obtain ⟨h, -⟩ := reach_inv c hcap es
  refine ⟨?_, h.owned.nodup, ?_, h.bound k⟩
  · rw [h.owned.count k]
    unfold handles
    generalize ((Mem.init V).run c es).1.clients = m
    induction m with
    | nil => rfl
    | cons e m ih =>
      obtain ⟨a, x⟩ := e
      cases x with
      | none =>
        simp only [List.filterMap_cons, List.filter_cons]
        exact ih
      | some y =>
        simp only [List.filterMap_cons, List.filter_cons, Option.map_some]
        by_cases hk : y.1 = k
        · simp only [hk, beq_self_eq_true, if_true, List.length_cons, ih]
        · have h1 : (some y.1 == some k) = false := by simp [hk]
          have h2 : (y.1 == k) = false := by simp [hk]
          simp only [h1, h2, Bool.false_eq_true, if_false, ih]
  · intro a i hm
    exact h.owned.here (k, i) (List.mem_filterMap.mpr ⟨_, hm, rfl⟩)

/-- **C88**: a request is answered with "Server resources busy" exactly if it would otherwise be served and every pool which suits its window
is full (a single block reader suits only a window of one block). -/
theorem c88_busy_iff (c : Caps) (hcap : ∀ k, c.cap k < 65535) (es : List (MemEv V)) (a : Addr) (ready : Bool) (window : Nat)
    (make : Kind → V) (accepted : Bool) :
    (((Mem.init V).run c es).1.step c (.download a ready window make accepted)).2 = .busy ↔
      a ∉ ((Mem.init V).run c es).1.clients.map (·.1) ∧ ((Mem.init V).run c es).1.clients.length < c.maxConn ∧ ready = true ∧
      ∀ k, (k = .single → window = 1) → c.cap k ≤ (((Mem.init V).run c es).1.pools k).length := by
  obtain ⟨h, -⟩ := reach_inv c hcap es
  generalize ((Mem.init V).run c es).1 = s at h
  generalize (Conns.run c [] es).1 = l at h
  rw [(step_inv (by unfold poolKeys; exact hcap) h _).2]
  have hlen : l.length = s.clients.length := by rw [h.abs, List.length_map]
  have hmem : l.map (·.1) = s.clients.map (·.1) := by rw [h.abs, seen_addrs]
  have hfull : ∀ k, ¬ l.free c k ↔ c.cap k ≤ (s.pools k).length := by
    intro k; unfold Conns.free; rw [count_eq h]; omega
  simp only [Conns.step, hmem, hlen]
  constructor
  · intro hb
    split at hb
    · cases hb
    · rename_i hq
      refine ⟨fun q => hq (.inl q), Nat.lt_of_not_le (fun q => hq (.inr (.inl q))), ?_, ?_⟩
      · cases ready
        · exact absurd (.inr (.inr rfl)) hq
        · rfl
      · split at hb
        · rename_i hch
          unfold Conns.choice at hch
          split at hch
          · cases hch
          · split at hch
            · cases hch
            · split at hch
              · cases hch
              · split at hch
                · cases hch
                · rename_i h1 h2 h3 h4
                  intro k hk
                  rw [← hfull]
                  cases k with
                  | single => exact fun q => h2 ⟨hk rfl, q⟩
                  | multi => exact h3
                  | seek => exact h4
        · split at hb
          · unfold Conns.join at hb
            split at hb <;> cases hb
          · cases hb
  · rintro ⟨h1, h2, h3, h4⟩
    rw [if_neg (by
      rintro (q | q | q)
      · exact h1 q
      · omega
      · rw [h3] at q; cases q)]
    have hch : l.choice c window = none := by
      unfold Conns.choice
      rw [if_neg (fun q => (hfull .seek).mpr (h4 .seek (fun e => by cases e)) q.2),
        if_neg (fun q => (hfull .single).mpr (h4 .single (fun _ => q.1)) q.2),
        if_neg ((hfull .multi).mpr (h4 .multi (fun e => by cases e))),
        if_neg ((hfull .seek).mpr (h4 .seek (fun e => by cases e)))]
    rw [hch]

theorem conns_lost {c : Caps} (hc : c.maxConn ≤ c.clients) (l : Conns V) (e : MemEv V) : (l.step c e).2 ≠ .lost := by
  intro h
  cases e with
  | sweep keep => cases h
  | use a f => cases h
  | download a ready window make accepted =>
    simp only [Conns.step] at h
    split at h
    · cases h
    · rename_i hq
      split at h
      · cases h
      · split at h
        · unfold Conns.join at h
          rw [if_pos (by
            have : ¬ c.maxConn ≤ l.length := fun q => hq (.inr (.inl q))
            omega)] at h
          cases h
        · cases h
  | upload a ready accepted =>
    simp only [Conns.step] at h
    split at h
    · cases h
    · rename_i hq
      unfold Conns.join at h
      rw [if_pos (by
        have : ¬ c.maxConn ≤ l.length := fun q => hq (.inr (.inl q))
        omega)] at h
      cases h

/-- **C88**: if the configuration allows at most as many connections as the table holds, no client is told that its request was accepted
without getting a connection, and the messages "Exhausted ..." never appear. -/
theorem c88_not_lost (c : Caps) (hcap : ∀ k, c.cap k < 65535) (hc : c.maxConn ≤ c.clients) (es : List (MemEv V)) :
    MemOut.lost ∉ ((Mem.init V).run c es).2 := by
  rw [(c88_refines c hcap es).1]
  have key : ∀ (es : List (MemEv V)) (l : Conns V), MemOut.lost ∉ (Conns.run c l es).2 := by
    intro es
    induction es with
    | nil => intro l h; cases h
    | cons e es ih =>
      intro l h
      simp only [Conns.run, List.mem_cons] at h
      rcases h with h | h
      · exact conns_lost hc l e h.symm
      · exact ih _ h
  exact key es []

/-- **C88**: a request which ends in `joined` has its connection: for a download with the reader which was made for it. -/
theorem c88_joined (c : Caps) (hcap : ∀ k, c.cap k < 65535) (es : List (MemEv V)) (a : Addr) (ready : Bool) (window : Nat)
    (make : Kind → V) (accepted : Bool)
    (hj : (((Mem.init V).run c es).1.step c (.download a ready window make accepted)).2 = .joined) :
    ∃ k, (k = .single → window = 1) ∧
      (((Mem.init V).run c es).1.step c (.download a ready window make accepted)).1.view =
        ((Mem.init V).run c es).1.view ++ [(a, some (k, make k))] := by
  obtain ⟨h, -⟩ := reach_inv c hcap es
  generalize ((Mem.init V).run c es).1 = s at h hj ⊢
  generalize (Conns.run c [] es).1 = l at h
  have hst := step_inv (by unfold poolKeys; exact hcap) h (.download a ready window make accepted)
  rw [hst.2] at hj
  have hv := hst.1.abs
  rw [← view_eq] at hv
  have hv0 := h.abs
  rw [← view_eq] at hv0
  rw [← hv, ← hv0]
  clear hv hst
  simp only [Conns.step] at hj ⊢
  split at hj
  · cases hj
  · rename_i hq
    rw [if_neg hq]
    split at hj
    · cases hj
    · rename_i k hk
      split at hj
      · rename_i hacc
        rw [if_pos hacc]
        unfold Conns.join at hj ⊢
        split at hj
        · rename_i hl
          refine ⟨k, ?_, by rw [if_pos hl]⟩
          intro hs
          subst hs
          unfold Conns.choice at hk
          split at hk
          · cases hk
          · split at hk
            · rename_i hw; exact hw.1
            · split at hk
              · cases hk
              · split at hk <;> cases hk
        · cases hj
      · cases hj

/-- The uploads of clients `0 … n - 1`. -/
def manyUploads (V : Type) (n : Nat) : List (MemEv V) := (List.range n).map fun a => .upload a true true

theorem conns_run_append (c : Caps) (es es' : List (MemEv V)) : ∀ l : Conns V,
    Conns.run c l (es ++ es') = ((Conns.run c (Conns.run c l es).1 es').1, (Conns.run c l es).2 ++ (Conns.run c (Conns.run c l es).1 es').2) := by
  induction es with
  | nil => intro l; rfl
  | cons e es ih => intro l; simp only [List.cons_append, Conns.run, ih]

theorem uploads_run (c : Caps) (n : Nat) (hn : n ≤ c.clients) (hm : n ≤ c.maxConn) :
    Conns.run c [] (manyUploads V n) = ((List.range n).map (fun a => (a, none)), List.replicate n .joined) := by
  induction n with
  | zero => rfl
  | succ n ih =>
    have hu : manyUploads V (n + 1) = manyUploads V n ++ [.upload n true true] := by
      unfold manyUploads; rw [List.range_succ, List.map_append]; rfl
    rw [hu, conns_run_append, ih (by omega) (by omega)]
    have hne : ¬ (n ∈ ((List.range n).map fun a => ((a, none) : Addr × Option (Kind × V))).map (·.1) ∨
        c.maxConn ≤ ((List.range n).map fun a => ((a, none) : Addr × Option (Kind × V))).length ∨ true = false ∨ true = false) := by
      rintro (q | q | q | q)
      · simp at q
      · simp only [List.length_map, List.length_range] at q; omega
      · cases q
      · cases q
    have hroom : ((List.range n).map fun a => ((a, none) : Addr × Option (Kind × V))).length < c.clients := by
      simp only [List.length_map, List.length_range]; omega
    simp only [Conns.run, Conns.step, hne, if_false, Conns.join, hroom, if_true]
    rw [List.range_succ, List.map_append, List.replicate_succ']
    rfl

/-- **C88** (witness): if the configuration allows more connections than the table holds, the client after the last one which fits is told
that its upload was accepted and there is no connection. -/
theorem c88_lost (c : Caps) (hcap : ∀ k, c.cap k < 65535) (hc : c.clients < c.maxConn) :
    ((Mem.init V).run c (manyUploads V (c.clients + 1))).2 = List.replicate c.clients .joined ++ [.lost] ∧
    c.clients ∉ ((Mem.init V).run c (manyUploads V (c.clients + 1))).1.view.map (·.1) := by
  obtain ⟨h1, h2⟩ := c88_refines c hcap (manyUploads V (c.clients + 1))
  rw [h1, h2]
  have hu : manyUploads V (c.clients + 1) = manyUploads V c.clients ++ [.upload c.clients true true] := by
    unfold manyUploads; rw [List.range_succ, List.map_append]; rfl
  rw [hu, conns_run_append, uploads_run c c.clients (Nat.le_refl _) (by omega)]
  have hne : ¬ (c.clients ∈ ((List.range c.clients).map fun a => ((a, none) : Addr × Option (Kind × V))).map (·.1) ∨
      c.maxConn ≤ ((List.range c.clients).map fun a => ((a, none) : Addr × Option (Kind × V))).length ∨ true = false ∨ true = false) := by
    rintro (q | q | q | q)
    · simp at q
    · simp only [List.length_map, List.length_range] at q; omega
    · cases q
    · cases q
  have hroom : ¬ ((List.range c.clients).map fun a => ((a, none) : Addr × Option (Kind × V))).length < c.clients := by
    simp only [List.length_map, List.length_range]; omega
  simp only [Conns.run, Conns.step, hne, if_false, Conns.join, hroom]
  refine ⟨trivial, ?_⟩
  simp

/-- The capacities of the code: src/config.rs:45-53. -/
def Caps.code (maxConn : Nat) (preferSeek : Bool) : Caps :=
  ⟨128, fun k => match k with | .single => 64 | .multi => 8 | .seek => 64, maxConn, preferSeek⟩

theorem code_caps (m : Nat) (p : Bool) (k : Kind) : (Caps.code m p).cap k < 65535 := by
  cases k
  · exact (by decide : 64 < 65535)
  · exact (by decide : 8 < 65535)
  · exact (by decide : 64 < 65535)

/-- Two single readers and one windowed reader: the second windowed download is refused; when the first one has gone its slot is used
again, and the readers in the pools are those which their owners changed. -/
example : ((Mem.init Nat).run ⟨9, fun k => match k with | .single => 2 | .multi => 1 | .seek => 0, 9, false⟩
    [.download 1 true 4 (fun _ => 10) true, .download 2 true 4 (fun _ => 20) true, .download 3 true 1 (fun _ => 30) true,
      .use 3 (· + 1), .use 1 (· + 2), .sweep (· != 1), .download 2 true 4 (fun _ => 40) true]).2 =
    [.joined, .busy, .joined, .quiet, .quiet, .quiet, .joined] := by decide +kernel

example : ((Mem.init Nat).run ⟨9, fun k => match k with | .single => 2 | .multi => 1 | .seek => 0, 9, false⟩
    [.download 1 true 4 (fun _ => 10) true, .download 2 true 4 (fun _ => 20) true, .download 3 true 1 (fun _ => 30) true,
      .use 3 (· + 1), .use 1 (· + 2), .sweep (· != 1), .download 2 true 4 (fun _ => 40) true]).1.view =
    [(3, some (.single, 31)), (2, some (.multi, 40))] := by decide +kernel

end Tftp

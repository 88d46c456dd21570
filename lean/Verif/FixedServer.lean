import Verif.Pool
import Verif.ReaderApi
import Verif.Server
/-
The memory of the single threaded server in builds without allocator: the table of clients holds at most `MAX_CLIENTS` entries and the
readers of downloads live in three pools of fixed size (src/server/single_thread.rs:122-129, 264-405, src/readers/pool_reader.rs,
src/server/readers_available.rs, src/server/connection_builder.rs:381-423). C88.

The maps of that build are `heapless::FnvIndexMap` (src/lib.rs:75-79); they are modelled by `FMap` (Pool.lean). The operations which are
used here (`len`, `contains_key`, `get`, `get_mut`, `insert` of an absent key, `entry`, `remove`, `retain`) answer the same; the order of
the entries of a pool, which `remove` changes in `FnvIndexMap`, is not used. That `FnvIndexMap` is a finite map is trusted.
-/
namespace Tftp

/-- src/config.rs:43-54: capacities of the client table and of the pools (without feature `seek` there are no seeking readers: capacity
0, src/server/readers_available.rs:29-30); `max_connections` and `prefer_seek` of the configuration. -/
structure Caps where
  clients : Nat
  cap : Kind → Nat
  maxConn : Nat
  preferSeek : Bool

/-- The clients, each with the handle of its reader (`PoolReader`: which pool and which slot; `none`: an upload), and the pools. -/
structure Mem (V : Type) where
  clients : FMap Addr (Option (Kind × Nat))
  pools : Kind → FMap Nat V

/-- src/server/single_thread.rs:122-129. -/
def Mem.init (V : Type) : Mem V := ⟨[], fun _ => []⟩

/-- What happens to the memory of the server. -/
inductive MemEv (V : Type)
  /-- connections are given up every two seconds: those for which `keep` says no -/
  | sweep (keep : Addr → Bool)
  /-- the reader of the client is used -/
  | use (a : Addr) (f : V → V)
  /-- a read request; `ready`: it is valid, the file is open and there is a socket; `make`: the reader which would be made; `accepted`: the
  acceptance was sent -/
  | download (a : Addr) (ready : Bool) (window : Nat) (make : Kind → V) (accepted : Bool)
  /-- a write request -/
  | upload (a : Addr) (ready : Bool) (accepted : Bool)

/-- How it ends: the server answers "Server resources busy"; the connection exists; the request was accepted but there is no connection;
the server panics. -/
inductive MemOut
  | quiet
  | busy
  | joined
  | lost
  | panic
deriving DecidableEq, Repr

section
variable {V : Type}

/-- src/server/readers_available.rs:21-33 `from_used`: unsigned subtractions. -/
def Mem.available (c : Caps) (s : Mem V) : Option (Kind → Nat) :=
  if (s.pools .single).length ≤ c.cap .single ∧ (s.pools .multi).length ≤ c.cap .multi ∧ (s.pools .seek).length ≤ c.cap .seek then
    some fun k => c.cap k - (s.pools k).length
  else none

/-- src/server/connection_builder.rs:381-423 `block_reader`. -/
def pickReader (preferSeek : Bool) (window : Nat) (av : Kind → Nat) : Option Kind :=
  if preferSeek && decide (av .seek > 0) then some .seek
  else if decide (window = 1) && decide (av .single > 0) then some .single
  else if av .multi > 0 then some .multi
  else if av .seek > 0 then some .seek
  else none

/-- One pool changed. -/
def Mem.setPool (s : Mem V) (k : Kind) (p : FMap Nat V) : Mem V := { s with pools := fun k' => if k' = k then p else s.pools k' }

/-- src/readers/pool_reader.rs:161-175 `drop`. -/
def Mem.drop (s : Mem V) : Option (Kind × Nat) → Mem V
  | none => s
  | some (k, i) => s.setPool k ((s.pools k).remove i).1

/-- src/server/single_thread.rs:149-152: `clients.retain`; the values which are taken out are dropped. -/
def Mem.sweep (s : Mem V) (keep : Addr → Bool) : Mem V :=
  ((s.clients.filter fun e => !keep e.1).map (·.2)).foldl Mem.drop { s with clients := s.clients.retain fun a _ => keep a }

/-- src/server/single_thread.rs:400-405: `entry.insert`; if it fails the value is dropped. -/
def Mem.enter (c : Caps) (s : Mem V) (a : Addr) (h : Option (Kind × Nat)) : Mem V × MemOut :=
  match s.clients.entryInsert c.clients a h with
  | (m, some (.ok ())) => ({ s with clients := m }, .joined)
  | (m, some (.error h)) => (({ s with clients := m } : Mem V).drop h, .lost)
  | (_, none) => (s, .quiet)

/-- src/server/single_thread.rs:366-398: the reader goes into its pool. The acceptance has been sent before. -/
def Mem.pooled (c : Caps) (s : Mem V) (a : Addr) (k : Kind) (v : V) : Mem V × MemOut :=
  match poolNew (c.cap k) (s.pools k) v with
  | (p, some i) => (s.setPool k p).enter c a (some (k, i))
  | (p, none) => (s.setPool k p, .lost)

/-- One event: src/server/single_thread.rs:149-155 (`sweep`), 158-164 and 236-254 (`use`: `send_data_blocks` and `handle_read` call the
reader's `next`, `free_block`, `is_finished`, src/readers/pool_reader.rs:80-159 with `expect`), 205-215 and 256-405 (requests). A request
of a client which has a connection is ignored. -/
def Mem.step (c : Caps) (s : Mem V) : MemEv V → Mem V × MemOut
  | .sweep keep => (s.sweep keep, .quiet)
  | .use a f =>
    match s.clients.get a with
    | some (some (k, i)) => match (s.pools k).get i with
      | some _ => (s.setPool k ((s.pools k).update i f), .quiet)
      | none => (s, .panic)
    | _ => (s, .quiet)
  | .download a ready window make accepted =>
    if (s.clients.get a).isSome then (s, .quiet)
    else if s.clients.length ≥ c.maxConn then (s, .quiet)
    else match s.available c with
      | none => (s, .panic)
      | some av =>
        if !ready then (s, .quiet)
        else match pickReader c.preferSeek window av with
          | none => (s, .busy)
          | some k => if !accepted then (s, .quiet) else s.pooled c a k (make k)
  | .upload a ready accepted =>
    if (s.clients.get a).isSome then (s, .quiet)
    else if s.clients.length ≥ c.maxConn then (s, .quiet)
    else if !ready || !accepted then (s, .quiet)
    else s.enter c a none

/-- A history: the memory and what came out. -/
def Mem.run (c : Caps) : Mem V → List (MemEv V) → Mem V × List MemOut
  | s, [] => (s, [])
  | s, e :: es => (((s.step c e).1.run c es).1, (s.step c e).2 :: ((s.step c e).1.run c es).2)

end

/-! ### Specification: every connection owns its reader -/

namespace Spec
variable {V : Type}

/-- The connections in the order in which they began; a download with the kind and the state of its own reader. -/
abbrev Conns (V : Type) := List (Addr × Option (Kind × V))

/-- How many downloads have a reader of this kind. -/
def Conns.count (l : Conns V) (k : Kind) : Nat := (l.filter fun e => (e.2.map (·.1)) == some k).length

/-- A reader of this kind is left. -/
def Conns.free (c : Caps) (l : Conns V) (k : Kind) : Prop := l.count k < c.cap k

instance (c : Caps) (l : Conns V) (k : Kind) : Decidable (l.free c k) := by unfold Conns.free; infer_instance

/-- Which reader a download gets. -/
def Conns.choice (c : Caps) (l : Conns V) (window : Nat) : Option Kind :=
  if c.preferSeek = true ∧ l.free c .seek then some .seek
  else if window = 1 ∧ l.free c .single then some .single
  else if l.free c .multi then some .multi
  else if l.free c .seek then some .seek
  else none

/-- A new connection, if the table has room. -/
def Conns.join (c : Caps) (l : Conns V) (a : Addr) (r : Option (Kind × V)) : Conns V × MemOut :=
  if l.length < c.clients then (l ++ [(a, r)], .joined) else (l, .lost)

/-- One event. -/
def Conns.step (c : Caps) (l : Conns V) : MemEv V → Conns V × MemOut
  | .sweep keep => (l.filter fun e => keep e.1, .quiet)
  | .use a f => (l.map fun e => if e.1 = a then (e.1, e.2.map fun r => (r.1, f r.2)) else e, .quiet)
  | .download a ready window make accepted =>
    if a ∈ l.map (·.1) ∨ c.maxConn ≤ l.length ∨ ready = false then (l, .quiet)
    else match l.choice c window with
      | none => (l, .busy)
      | some k => if accepted = true then l.join c a (some (k, make k)) else (l, .quiet)
  | .upload a ready accepted =>
    if a ∈ l.map (·.1) ∨ c.maxConn ≤ l.length ∨ ready = false ∨ accepted = false then (l, .quiet)
    else l.join c a none

/-- A history. -/
def Conns.run (c : Caps) : Conns V → List (MemEv V) → Conns V × List MemOut
  | l, [] => (l, [])
  | l, e :: es => (((l.step c e).1.run c es).1, (l.step c e).2 :: ((l.step c e).1.run c es).2)

end Spec

/-! ### Refinement -/

section
variable {V : Type}
open Spec

attribute [local irreducible] poolKeys

/-- The pools hold exactly the readers with these handles. -/
structure Owned (pools : Kind → FMap Nat V) (H : List (Kind × Nat)) : Prop where
  nodup : H.Nodup
  keys : ∀ k, ((pools k).map (·.1)).Nodup
  count : ∀ k, (pools k).length = (H.filter fun h => h.1 == k).length
  here : ∀ h ∈ H, ((pools h.1).get h.2).isSome

/-- The reader of a handle. -/
def readerOf (pools : Kind → FMap Nat V) (h : Kind × Nat) : Option (Kind × V) := ((pools h.1).get h.2).map fun v => (h.1, v)

/-- The handles of the clients. -/
def handles (l : FMap Addr (Option (Kind × Nat))) : List (Kind × Nat) := l.filterMap (·.2)

/-- What a client of the implementation is for the specification. -/
def seen (pools : Kind → FMap Nat V) (e : Addr × Option (Kind × Nat)) : Addr × Option (Kind × V) := (e.1, e.2.bind (readerOf pools))

structure MemInv (c : Caps) (s : Mem V) (l : Conns V) : Prop where
  addrs : (s.clients.map (·.1)).Nodup
  owned : Owned s.pools (handles s.clients)
  bound : ∀ k, (s.pools k).length ≤ c.cap k
  abs : l = s.clients.map (seen s.pools)

theorem Owned.perm {pools : Kind → FMap Nat V} {H H' : List (Kind × Nat)} (h : Owned pools H) (p : H.Perm H') : Owned pools H' :=
  ⟨p.nodup_iff.mp h.nodup, h.keys, fun k => by rw [h.count k]; exact (p.filter _).length_eq, fun x hx => h.here x (p.mem_iff.mpr hx)⟩

/-- Dropping one reader. -/
theorem Owned.drop {s : Mem V} {x : Kind × Nat} {H : List (Kind × Nat)} (h : Owned s.pools (x :: H)) :
    Owned (s.drop (some x)).pools H ∧ (∀ y ∈ H, readerOf (s.drop (some x)).pools y = readerOf s.pools y) ∧
    ∀ k, ((s.drop (some x)).pools k).length ≤ (s.pools k).length := by
  obtain ⟨k, i⟩ := x
  have hr := remove_get (s.pools k) (h.keys k) i
  have hnd := List.nodup_cons.mp h.nodup
  have hhere : ((s.pools k).get i).isSome := h.here (k, i) List.mem_cons_self
  have hp : ∀ k', (s.drop (some (k, i))).pools k' = if k' = k then ((s.pools k).remove i).1 else s.pools k' := fun _ => rfl
  have hlen : ((s.pools k).remove i).1.length = (s.pools k).length - 1 := by
    have := (hr i).2.2.1
    rw [this, if_pos hhere]
  have hget : ∀ y ∈ H, ((s.drop (some (k, i))).pools y.1).get y.2 = (s.pools y.1).get y.2 := by
    intro y hy
    rw [hp]
    by_cases hk : y.1 = k
    · rw [if_pos hk, (hr y.2).1]
      have : i ≠ y.2 := fun hi => hnd.1 (by rw [hi, ← hk]; exact hy)
      rw [if_neg this, hk]
    · rw [if_neg hk]
  refine ⟨⟨hnd.2, ?_, ?_, ?_⟩, ?_, ?_⟩
  · intro k'
    rw [hp]
    by_cases hk : k' = k
    · rw [if_pos hk]; exact (h.keys k).sublist (hr i).2.2.2
    · rw [if_neg hk]; exact h.keys k'
  · intro k'
    rw [hp]
    have hc := h.count k'
    rw [List.filter_cons] at hc
    by_cases hk : k' = k
    · subst hk
      rw [if_pos rfl, hlen, hc]
      simp
    · rw [if_neg hk, hc]
      have hk' : (k == k') = false := by rw [beq_eq_false_iff_ne]; exact fun e => hk e.symm
      simp only [hk', Bool.false_eq_true, if_false]
  · intro y hy
    rw [hget y hy]
    exact h.here y (List.mem_cons_of_mem _ hy)
  · intro y hy
    unfold readerOf
    rw [hget y hy]
  · intro k'
    rw [hp]
    by_cases hk : k' = k
    · rw [if_pos hk, hlen, hk]; omega
    · rw [if_neg hk]; exact Nat.le_refl _

theorem drop_clients (s : Mem V) (h : Option (Kind × Nat)) : (s.drop h).clients = s.clients := by
  cases h <;> rfl

/-- Dropping many. -/
theorem Owned.drops {H : List (Kind × Nat)} (gone : List (Option (Kind × Nat))) : ∀ (s : Mem V),
    Owned s.pools (gone.filterMap id ++ H) →
    Owned (gone.foldl Mem.drop s).pools H ∧ (∀ y ∈ H, readerOf (gone.foldl Mem.drop s).pools y = readerOf s.pools y) ∧
    (∀ k, ((gone.foldl Mem.drop s).pools k).length ≤ (s.pools k).length) ∧ (gone.foldl Mem.drop s).clients = s.clients := by
  induction gone with
  | nil => exact fun s h => ⟨h, fun _ _ => rfl, fun _ => Nat.le_refl _, rfl⟩
  | cons x gone ih =>
    intro s h
    cases x with
    | none => exact ih s h
    | some x =>
      simp only [List.filterMap_cons, id_eq, List.cons_append] at h
      obtain ⟨h1, h2, h3⟩ := h.drop
      obtain ⟨i1, i2, i3, i4⟩ := ih _ h1
      refine ⟨i1, ?_, ?_, ?_⟩
      · intro y hy
        simp only [List.foldl_cons]
        rw [i2 y hy, h2 y (List.mem_append_right _ hy)]
      · exact fun k => Nat.le_trans (i3 k) (h3 k)
      · exact i4.trans (drop_clients s _)

theorem seen_congr {l : FMap Addr (Option (Kind × Nat))} {p p' : Kind → FMap Nat V}
    (h : ∀ y ∈ handles l, readerOf p' y = readerOf p y) : l.map (seen p') = l.map (seen p) := by
  apply List.map_congr_left
  intro e he
  obtain ⟨a, x⟩ := e
  cases x with
  | none => rfl
  | some x =>
    have := h x (List.mem_filterMap.mpr ⟨_, he, rfl⟩)
    simp only [seen, Option.bind_some, this]

theorem seen_addrs (l : FMap Addr (Option (Kind × Nat))) (p : Kind → FMap Nat V) : (l.map (seen p)).map (·.1) = l.map (·.1) := by
  rw [List.map_map]; rfl

/-- The specification counts what is in the pools. -/
theorem count_eq {c : Caps} {s : Mem V} {l : Conns V} (h : MemInv c s l) (k : Kind) : l.count k = (s.pools k).length := by
  rw [h.owned.count k, h.abs]
  unfold Conns.count handles
  have key : ∀ (m : FMap Addr (Option (Kind × Nat))), (∀ y ∈ m.filterMap (·.2), (readerOf s.pools y).isSome) →
      ((m.map (seen s.pools)).filter fun e => (e.2.map (·.1)) == some k).length =
      ((m.filterMap (·.2)).filter fun h => h.1 == k).length := by
    intro m
    induction m with
    | nil => intro _; rfl
    | cons e m ih =>
      intro hm
      obtain ⟨a, x⟩ := e
      cases x with
      | none =>
        simp only [List.filterMap_cons] at hm ⊢
        rw [← ih hm]
        rfl
      | some y =>
        simp only [List.filterMap_cons, List.mem_cons, forall_eq_or_imp] at hm ⊢
        have hy := hm.1
        have ih := ih hm.2
        obtain ⟨v, hv⟩ := Option.isSome_iff_exists.mp hy
        have hv1 : v.1 = y.1 := by
          unfold readerOf at hv
          cases hg : (s.pools y.1).get y.2 with
          | none => rw [hg] at hv; cases hv
          | some w => rw [hg] at hv; cases hv; rfl
        simp only [List.map_cons, seen, Option.bind_some, hv, List.filter_cons, Option.map_some, hv1]
        by_cases hk : y.1 = k
        · simp only [hk, beq_self_eq_true, if_true, List.length_cons, ih]
        · have h1 : (some y.1 == some k) = false := by simp [hk]
          have h2 : (y.1 == k) = false := by simp [hk]
          simp only [h1, h2, Bool.false_eq_true, if_false, ih]
  apply key
  intro y hy
  unfold readerOf
  have := h.owned.here y hy
  rw [Option.isSome_map]
  exact this

theorem remove_absent (k : Nat) : ∀ m : FMap Nat V, FMap.get m k = none → (FMap.remove m k).1 = m := by
  intro m
  induction m with
  | nil => intro _; rfl
  | cons e m ih =>
    intro hk
    rw [get_cons] at hk
    by_cases he : e.1 = k
    · rw [if_pos he] at hk; cases hk
    · rw [if_neg he] at hk; unfold FMap.remove; rw [if_neg he, ih hk]

/-- A pool with room gives a free slot. -/
theorem poolNew_room {cap : Nat} (hcap : cap < poolKeys) (m : FMap Nat V) (hm : m.length < cap) (v : V) :
    ∃ i, poolNew cap m v = (m ++ [(i, v)], some i) ∧ m.get i = none := by
  obtain ⟨i, hi, hg⟩ := freeKey_some m (by omega)
  refine ⟨i, ?_, hg⟩
  unfold poolNew
  rw [hi]
  simp only [poolPut, FMap.insert, remove_absent i m hg, FMap.push, hm, ↓reduceIte]

/-- A new reader in a pool. -/
theorem Owned.add {s : Mem V} {H : List (Kind × Nat)} (h : Owned s.pools H) {k : Kind} {i : Nat} (v : V)
    (hg : (s.pools k).get i = none) :
    Owned (s.setPool k (s.pools k ++ [(i, v)])).pools ((k, i) :: H) ∧
    (∀ y ∈ H, readerOf (s.setPool k (s.pools k ++ [(i, v)])).pools y = readerOf s.pools y) ∧
    readerOf (s.setPool k (s.pools k ++ [(i, v)])).pools (k, i) = some (k, v) := by
  have hp : ∀ k', (s.setPool k (s.pools k ++ [(i, v)])).pools k' = if k' = k then s.pools k ++ [(i, v)] else s.pools k' := fun _ => rfl
  have hnew : (k, i) ∉ H := fun hm => by
    have := h.here _ hm
    rw [hg] at this
    cases this
  have hget : ∀ y ∈ H, ((s.setPool k (s.pools k ++ [(i, v)])).pools y.1).get y.2 = (s.pools y.1).get y.2 := by
    intro y hy
    rw [hp]
    by_cases hk : y.1 = k
    · rw [if_pos hk, get_append]
      have : i ≠ y.2 := fun hi => hnew (by rw [hi, ← hk]; exact hy)
      rw [if_neg this, hk, Option.or_none]
    · rw [if_neg hk]
  have hlast : ((s.setPool k (s.pools k ++ [(i, v)])).pools k).get i = some v := by
    rw [hp, if_pos rfl, get_append, hg, if_pos rfl, Option.none_or]
  refine ⟨⟨List.nodup_cons.mpr ⟨hnew, h.nodup⟩, ?_, ?_, ?_⟩, ?_, ?_⟩
  · intro k'
    rw [hp]
    by_cases hk : k' = k
    · rw [if_pos hk, List.map_append, List.nodup_append]
      refine ⟨h.keys k, by simp, ?_⟩
      intro a ha b hb
      simp only [List.map_cons, List.map_nil, List.mem_singleton] at hb
      rw [hb]
      intro hab
      rw [get_none_iff] at hg
      exact hg (by rw [← hab]; exact ha)
    · rw [if_neg hk]; exact h.keys k'
  · intro k'
    rw [hp, List.filter_cons]
    by_cases hk : k' = k
    · subst hk
      simp [h.count k']
    · rw [if_neg hk]
      have : (k == k') = false := by rw [beq_eq_false_iff_ne]; exact fun e => hk e.symm
      simp only [this, Bool.false_eq_true, if_false]
      exact h.count k'
  · intro y hy
    rcases List.mem_cons.mp hy with rfl | hy
    · rw [hlast]; rfl
    · rw [hget y hy]; exact h.here y hy
  · intro y hy
    unfold readerOf
    rw [hget y hy]
  · unfold readerOf
    rw [hlast]
    rfl

/-- The reader of one client changes. -/
theorem Owned.update {s : Mem V} {H : List (Kind × Nat)} (h : Owned s.pools H) (k : Kind) (i : Nat) (f : V → V) :
    Owned (s.setPool k ((s.pools k).update i f)).pools H ∧
    ∀ y, readerOf (s.setPool k ((s.pools k).update i f)).pools y =
      if y = (k, i) then (readerOf s.pools y).map fun r => (r.1, f r.2) else readerOf s.pools y := by
  have hp : ∀ k', (s.setPool k ((s.pools k).update i f)).pools k' = if k' = k then (s.pools k).update i f else s.pools k' := fun _ => rfl
  have hkeys := update_keys (s.pools k) i f
  have hlen : ((s.pools k).update i f).length = (s.pools k).length := by
    have := congrArg List.length hkeys
    simpa using this
  refine ⟨⟨h.nodup, ?_, ?_, ?_⟩, ?_⟩
  · intro k'
    rw [hp]
    by_cases hk : k' = k
    · rw [if_pos hk, hkeys]; exact h.keys k
    · rw [if_neg hk]; exact h.keys k'
  · intro k'
    rw [hp]
    by_cases hk : k' = k
    · rw [if_pos hk, hlen, hk]; exact h.count k
    · rw [if_neg hk]; exact h.count k'
  · intro y hy
    rw [hp]
    by_cases hk : y.1 = k
    · rw [if_pos hk, update_get]
      have := h.here y hy
      rw [hk] at this
      split
      · rw [Option.isSome_map]; exact this
      · exact this
    · rw [if_neg hk]; exact h.here y hy
  · intro y
    obtain ⟨k', i'⟩ := y
    unfold readerOf
    simp only
    rw [hp]
    by_cases hk : k' = k
    · subst hk
      rw [if_pos rfl, update_get]
      by_cases hi : i = i'
      · subst hi
        simp only [if_true, Option.map_map]
        rfl
      · rw [if_neg hi, if_neg (fun e => hi (Prod.mk.inj e).2.symm)]
    · rw [if_neg hk, if_neg (fun e => hk (Prod.mk.inj e).1)]

theorem handles_filter (m : FMap Addr (Option (Kind × Nat))) (keep : Addr → Bool) :
    (((m.filter fun e => !keep e.1).map (·.2)).filterMap id ++ handles (m.filter fun e => keep e.1)).Perm (handles m) := by
  have h1 : ((m.filter fun e => !keep e.1).map (·.2)).filterMap id = handles (m.filter fun e => !keep e.1) := by
    rw [List.filterMap_map]; rfl
  rw [h1]
  have := (List.filter_append_perm (fun e : Addr × Option (Kind × Nat) => keep e.1) m).filterMap (·.2)
  rw [List.filterMap_append] at this
  exact (List.perm_append_comm).trans this

theorem sweep_inv {c : Caps} {s : Mem V} {l : Conns V} (h : MemInv c s l) (keep : Addr → Bool) :
    MemInv c (s.sweep keep) (l.filter fun e => keep e.1) := by
  have ho : Owned ({ s with clients := s.clients.retain fun a _ => keep a } : Mem V).pools
      (((s.clients.filter fun e => !keep e.1).map (·.2)).filterMap id ++ handles (s.clients.filter fun e => keep e.1)) :=
    h.owned.perm (handles_filter s.clients keep).symm
  obtain ⟨h1, h2, h3, h4⟩ := Owned.drops _ _ ho
  have hc : (s.sweep keep).clients = s.clients.filter fun e => keep e.1 := h4
  have hp : (s.sweep keep).pools = (((s.clients.filter fun e => !keep e.1).map (·.2)).foldl Mem.drop
      { s with clients := s.clients.retain fun a _ => keep a }).pools := rfl
  refine ⟨?_, ?_, ?_, ?_⟩
  · rw [hc]; exact h.addrs.sublist (List.filter_sublist.map _)
  · rw [hc, hp]; exact h1
  · intro k; rw [hp]; exact Nat.le_trans (h3 k) (h.bound k)
  · rw [hc, hp, seen_congr h2, h.abs, List.filter_map]
    rfl

theorem get_seen {m : FMap Addr (Option (Kind × Nat))} {a : Addr} : (m.get a).isSome = decide (a ∈ m.map (·.1)) := by
  cases hg : m.get a with
  | none => rw [get_none_iff] at hg; simp only [Option.isSome_none, hg, decide_false]
  | some x =>
    have : a ∈ m.map (·.1) := by
      apply Classical.byContradiction
      intro hn
      rw [← get_none_iff, hg] at hn
      cases hn
    simp only [Option.isSome_some, this, decide_true]

/-- Another client's reader is not touched. -/
theorem use_inv {c : Caps} {s : Mem V} {l : Conns V} (h : MemInv c s l) (a : Addr) (f : V → V) :
    MemInv c (s.step c (.use a f)).1 (l.step c (.use a f)).1 ∧ (s.step c (.use a f)).2 = (l.step c (.use a f)).2 := by
  have hmem : ∀ x, s.clients.get a = some x → (a, x) ∈ s.clients := fun x hx => get_mem hx
  have huniq : ∀ e ∈ s.clients, e.1 = a → s.clients.get a = some e.2 := by
    intro e he ha
    exact get_of_mem h.addrs (by rw [← ha]; exact he)
  have hnone : ∀ (hx : ∀ y, s.clients.get a ≠ some (some y)), (l.step c (.use a f)).1 = l := by
    intro hx
    simp only [Conns.step, h.abs, List.map_map]
    apply List.map_congr_left
    intro e he
    simp only [Function.comp_apply]
    by_cases ha : e.1 = a
    · rw [if_pos (show (seen s.pools e).1 = a from ha)]
      have := huniq e he ha
      simp only [seen]
      cases h2 : e.2 with
      | none => rfl
      | some y => rw [h2] at this; exact absurd this (hx y)
    · rw [if_neg (show ¬ (seen s.pools e).1 = a from ha)]
  have ho : (l.step c (.use a f)).2 = .quiet := rfl
  rw [ho]
  simp only [Mem.step]
  cases hg : s.clients.get a with
  | none => simp only; rw [hnone (fun y hy => by rw [hg] at hy; cases hy)]; exact ⟨h, trivial⟩
  | some x =>
    cases x with
    | none => simp only; rw [hnone (fun y hy => by rw [hg] at hy; cases hy)]; exact ⟨h, trivial⟩
    | some y =>
      obtain ⟨k, i⟩ := y
      have hin : (k, i) ∈ handles s.clients := List.mem_filterMap.mpr ⟨_, hmem _ hg, rfl⟩
      obtain ⟨v, hv⟩ := Option.isSome_iff_exists.mp (h.owned.here _ hin)
      simp only at hv
      simp only [hv]
      refine ⟨⟨h.addrs, (h.owned.update k i f).1, ?_, ?_⟩, trivial⟩
      · intro k'
        have hp : (s.setPool k ((s.pools k).update i f)).pools k' = if k' = k then (s.pools k).update i f else s.pools k' := rfl
        rw [hp]
        split
        · have := congrArg List.length (update_keys (s.pools k) i f)
          rw [List.length_map, List.length_map] at this
          rename_i hk
          rw [this, hk]
          exact h.bound k
        · exact h.bound k'
      · have hu := (h.owned.update k i f).2
        have hcl : (s.setPool k ((s.pools k).update i f)).clients = s.clients := rfl
        rw [hcl]
        simp only [Conns.step, h.abs, List.map_map]
        apply List.map_congr_left
        intro e he
        simp only [Function.comp_apply]
        by_cases ha : e.1 = a
        · rw [if_pos (show (seen s.pools e).1 = a from ha)]
          simp only [seen]
          have := huniq e he ha
          rw [hg] at this
          rw [← Option.some.inj this]
          simp only [Option.bind_some, hu, if_true]
        · rw [if_neg (show ¬ (seen s.pools e).1 = a from ha)]
          simp only [seen]
          cases h2 : e.2 with
          | none => rfl
          | some y =>
            simp only [Option.bind_some, hu]
            rw [if_neg]
            intro hy
            -- the two clients would share a slot
            have hsh : ∀ (m : FMap Addr (Option (Kind × Nat))), (handles m).Nodup → ∀ e₁ ∈ m, ∀ e₂ ∈ m, ∀ y, e₁.2 = some y → e₂.2 = some y →
                (m.map (·.1)).Nodup → e₁.1 = e₂.1 := by
              intro m
              induction m with
              | nil => intro _ e₁ h₁; cases h₁
              | cons e₀ m ih =>
                intro hn e₁ h₁ e₂ h₂ y hy₁ hy₂ ha
                have ha' := List.nodup_cons.mp ha
                have hmemH : ∀ e ∈ m, e.2 = some y → y ∈ handles m := fun e he hy => List.mem_filterMap.mpr ⟨e, he, hy⟩
                have hn' : (handles m).Nodup := by
                  unfold handles at hn
                  rw [List.filterMap_cons] at hn
                  split at hn
                  · exact hn
                  · exact (List.nodup_cons.mp hn).2
                have hhead : e₀.2 = some y → y ∉ handles m := by
                  intro h0
                  unfold handles at hn
                  rw [List.filterMap_cons, h0] at hn
                  exact (List.nodup_cons.mp hn).1
                rcases List.mem_cons.mp h₁ with rfl | g₁ <;> rcases List.mem_cons.mp h₂ with rfl | g₂
                · rfl
                · exact absurd (hmemH _ g₂ hy₂) (hhead hy₁)
                · exact absurd (hmemH _ g₁ hy₁) (hhead hy₂)
                · exact ih hn' e₁ g₁ e₂ g₂ y hy₁ hy₂ ha'.2
            exact ha (hsh s.clients h.owned.nodup e he (a, some (k, i)) (hmem _ hg) (k, i) (by rw [h2, hy]) rfl h.addrs)

/-- Entering the table. -/
theorem enter_spec (c : Caps) (s : Mem V) (a : Addr) (x : Option (Kind × Nat)) (ha : (s.clients.get a) = none) :
    s.enter c a x = if s.clients.length < c.clients then ({ s with clients := s.clients ++ [(a, x)] }, .joined) else (s.drop x, .lost) := by
  unfold Mem.enter FMap.entryInsert FMap.push
  have : s.clients.any (fun e => e.1 == a) = false := by
    rw [List.any_eq_false]
    intro e he
    rw [get_none_iff] at ha
    simp only [beq_iff_eq]
    exact fun h => ha (List.mem_map.mpr ⟨e, he, h⟩)
  rw [this]
  simp only [Bool.false_eq_true, if_false]
  by_cases hl : s.clients.length < c.clients
  · simp only [hl, ↓reduceIte]
  · simp only [hl, ↓reduceIte]

theorem available_some {c : Caps} {s : Mem V} (h : ∀ k, (s.pools k).length ≤ c.cap k) :
    s.available c = some fun k => c.cap k - (s.pools k).length := by
  unfold Mem.available
  rw [if_pos ⟨h _, h _, h _⟩]

theorem choice_eq {c : Caps} {s : Mem V} {l : Conns V} (h : MemInv c s l) (window : Nat) :
    pickReader c.preferSeek window (fun k => c.cap k - (s.pools k).length) = l.choice c window := by
  have hf : ∀ k, (c.cap k - (s.pools k).length > 0) ↔ l.free c k := by
    intro k
    unfold Conns.free
    rw [count_eq h]
    omega
  unfold pickReader Conns.choice
  simp only [Bool.and_eq_true, decide_eq_true_eq, hf]

theorem choice_free {c : Caps} {l : Conns V} {window : Nat} {k : Kind} (h : l.choice c window = some k) : l.free c k := by
  unfold Conns.choice at h
  split at h
  · cases h; rename_i h; exact h.2
  · split at h
    · cases h; rename_i h; exact h.2
    · split at h
      · cases h; rename_i h; exact h
      · split at h
        · cases h; rename_i h; exact h
        · cases h

theorem pooled_inv {c : Caps} (hcap : ∀ k, c.cap k < poolKeys) {s : Mem V} {l : Conns V} (h : MemInv c s l) {a : Addr}
    (ha : s.clients.get a = none) {k : Kind} (hk : l.free c k) (v : V) :
    MemInv c (s.pooled c a k v).1 (l.join c a (some (k, v))).1 ∧ (s.pooled c a k v).2 = (l.join c a (some (k, v))).2 := by
  have hroom : (s.pools k).length < c.cap k := by rw [← count_eq h]; exact hk
  obtain ⟨i, hi, hg⟩ := poolNew_room (hcap k) (s.pools k) hroom v
  obtain ⟨a1, a2, a3⟩ := h.owned.add v hg
  have hpl : s.pooled c a k v = (s.setPool k (s.pools k ++ [(i, v)])).enter c a (some (k, i)) := by
    unfold Mem.pooled; rw [hi]
  have hlen : l.length = s.clients.length := by rw [h.abs, List.length_map]
  rw [hpl, enter_spec c (s.setPool k (s.pools k ++ [(i, v)])) a _ ha]
  have hcl : (s.setPool k (s.pools k ++ [(i, v)])).clients = s.clients := rfl
  rw [hcl]
  unfold Conns.join
  rw [hlen]
  by_cases hl : s.clients.length < c.clients
  · simp only [hl, ↓reduceIte]
    refine ⟨⟨?_, ?_, ?_, ?_⟩, trivial⟩
    · rw [List.map_append, List.nodup_append]
      refine ⟨h.addrs, by simp, ?_⟩
      intro x hx y hy
      simp only [List.map_cons, List.map_nil, List.mem_singleton] at hy
      rw [get_none_iff] at ha
      exact fun e => ha (by rw [← hy, ← e]; exact hx)
    · have : handles (s.clients ++ [(a, some (k, i))]) = handles s.clients ++ [(k, i)] := by
        unfold handles; rw [List.filterMap_append]; rfl
      rw [this]
      exact a1.perm (List.perm_append_comm (l₁ := [(k, i)]))
    · intro k'
      have hp : (s.setPool k (s.pools k ++ [(i, v)])).pools k' = if k' = k then s.pools k ++ [(i, v)] else s.pools k' := rfl
      show ((s.setPool k (s.pools k ++ [(i, v)])).pools k').length ≤ _
      rw [hp]
      split
      · rename_i e; rw [List.length_append, List.length_singleton, e]; omega
      · exact h.bound k'
    · show l ++ _ = List.map (seen (s.setPool k (s.pools k ++ [(i, v)])).pools) (s.clients ++ _)
      rw [List.map_append, seen_congr a2, ← h.abs]
      simp only [List.map_cons, List.map_nil, seen, Option.bind_some, a3]
  · simp only [hl, ↓reduceIte]
    obtain ⟨d1, d2, d3⟩ := a1.drop
    have hrem : (s.setPool k (s.pools k ++ [(i, v)])).drop (some (k, i)) = s := by
      have hk' : (s.setPool k (s.pools k ++ [(i, v)])).pools k = s.pools k ++ [(i, v)] := by
        show (if k = k then _ else _) = _
        rw [if_pos rfl]
      have h0 : ∀ m : FMap Nat V, m.get i = none → ((m ++ [(i, v)] : FMap Nat V).remove i).1 = m := by
        intro m
        induction m with
        | nil => intro _; simp [FMap.remove]
        | cons e m ih =>
          intro hm
          rw [get_cons] at hm
          by_cases he : e.1 = i
          · rw [if_pos he] at hm; cases hm
          · rw [if_neg he] at hm
            rw [List.cons_append]
            unfold FMap.remove
            rw [if_neg he, ih hm]
      simp only [Mem.drop, hk', h0 _ hg]
      obtain ⟨cl, pl⟩ := s
      simp only [Mem.setPool, Mem.mk.injEq, true_and]
      funext k'
      by_cases e : k' = k
      · rw [if_pos e, e]
      · rw [if_neg e, if_neg e]
    rw [hrem]
    exact ⟨h, trivial⟩

theorem step_inv {c : Caps} (hcap : ∀ k, c.cap k < poolKeys) {s : Mem V} {l : Conns V} (h : MemInv c s l) (e : MemEv V) :
    MemInv c (s.step c e).1 (l.step c e).1 ∧ (s.step c e).2 = (l.step c e).2 := by
  have hlen : l.length = s.clients.length := by rw [h.abs, List.length_map]
  have hmem : ∀ a, a ∈ l.map (·.1) ↔ (s.clients.get a).isSome = true := by
    intro a
    rw [get_seen, h.abs, seen_addrs, decide_eq_true_eq]
  cases e with
  | sweep keep => exact ⟨sweep_inv h keep, rfl⟩
  | use a f => exact use_inv h a f
  | download a ready window make accepted =>
    simp only [Mem.step, Conns.step]
    by_cases ha : (s.clients.get a).isSome = true
    · rw [if_pos ha, if_pos (.inl ((hmem a).mpr ha))]; exact ⟨h, rfl⟩
    · by_cases hmax : s.clients.length ≥ c.maxConn
      · rw [if_neg ha, if_pos hmax, if_pos (.inr (.inl (by rw [hlen]; exact hmax)))]; exact ⟨h, rfl⟩
      · rw [if_neg ha, if_neg hmax, available_some h.bound]
        simp only
        cases ready with
        | false =>
          have hq : a ∈ l.map (·.1) ∨ c.maxConn ≤ l.length ∨ false = false := .inr (.inr rfl)
          rw [if_pos hq]
          exact ⟨h, rfl⟩
        | true =>
          have hn : ¬ (a ∈ l.map (·.1) ∨ c.maxConn ≤ l.length ∨ true = false) := by
            rintro (q | q | q)
            · exact ha ((hmem a).mp q)
            · exact hmax (by rw [← hlen]; exact q)
            · cases q
          rw [if_neg hn, choice_eq h]
          simp only [Bool.not_true, Bool.false_eq_true, if_false]
          cases hc : l.choice c window with
          | none => exact ⟨h, rfl⟩
          | some k =>
            cases accepted with
            | false => exact ⟨h, rfl⟩
            | true =>
              have hnone : s.clients.get a = none := by
                cases hg : s.clients.get a with
                | none => rfl
                | some x => rw [hg] at ha; exact absurd rfl ha
              have := pooled_inv hcap h hnone (choice_free hc) (make k)
              simp only [Bool.not_true, Bool.false_eq_true, if_false, if_true]
              exact this
  | upload a ready accepted =>
    simp only [Mem.step, Conns.step]
    by_cases ha : (s.clients.get a).isSome = true
    · rw [if_pos ha, if_pos (.inl ((hmem a).mpr ha))]; exact ⟨h, rfl⟩
    · by_cases hmax : s.clients.length ≥ c.maxConn
      · rw [if_neg ha, if_pos hmax, if_pos (.inr (.inl (by rw [hlen]; exact hmax)))]; exact ⟨h, rfl⟩
      · rw [if_neg ha, if_neg hmax]
        by_cases hr : ready = false ∨ accepted = false
        · rw [if_pos (by rcases hr with rfl | rfl <;> simp), if_pos (.inr (.inr hr))]; exact ⟨h, rfl⟩
        · have hn : ¬ (a ∈ l.map (·.1) ∨ c.maxConn ≤ l.length ∨ ready = false ∨ accepted = false) := by
            rintro (q | q | q)
            · exact ha ((hmem a).mp q)
            · exact hmax (by rw [← hlen]; exact q)
            · exact hr q
          have hr' : ¬ ((!ready || !accepted) = true) := by
            cases ready <;> cases accepted <;> simp at hr ⊢
          have hnone : s.clients.get a = none := by
            cases hg : s.clients.get a with
            | none => rfl
            | some x => rw [hg] at ha; exact absurd rfl ha
          rw [if_neg hn, if_neg hr', enter_spec c s a none hnone]
          unfold Conns.join
          rw [hlen]
          by_cases hl : s.clients.length < c.clients
          · simp only [hl, ↓reduceIte]
            refine ⟨⟨?_, ?_, h.bound, ?_⟩, trivial⟩
            · rw [List.map_append, List.nodup_append]
              refine ⟨h.addrs, by simp, ?_⟩
              intro x hx y hy
              simp only [List.map_cons, List.map_nil, List.mem_singleton] at hy
              rw [get_none_iff] at hnone
              exact fun e => hnone (by rw [← hy, ← e]; exact hx)
            · have : handles (s.clients ++ [(a, none)]) = handles s.clients := by
                unfold handles; rw [List.filterMap_append]; simp
              rw [this]
              exact h.owned
            · rw [List.map_append, ← h.abs]; rfl
          · simp only [hl, ↓reduceIte]
            exact ⟨h, trivial⟩

theorem run_inv {c : Caps} (hcap : ∀ k, c.cap k < poolKeys) (es : List (MemEv V)) : ∀ {s : Mem V} {l : Conns V}, MemInv c s l →
    MemInv c (s.run c es).1 (l.run c es).1 ∧ (s.run c es).2 = (l.run c es).2 := by
  induction es with
  | nil => exact fun h => ⟨h, rfl⟩
  | cons e es ih =>
    intro s l h
    obtain ⟨h1, h2⟩ := step_inv hcap h e
    obtain ⟨i1, i2⟩ := ih h1
    exact ⟨i1, by simp only [Mem.run, Conns.run, h2, i2]⟩

theorem MemInv.init (c : Caps) : MemInv c (Mem.init V) [] :=
  ⟨List.nodup_nil, ⟨List.nodup_nil, fun _ => List.nodup_nil, fun _ => rfl, fun _ h => by cases h⟩, fun _ => Nat.zero_le _, rfl⟩

end

end Tftp

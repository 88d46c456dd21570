import Verif.Bytes
/-
The fixed capacity map of builds without allocator (src/map.rs) and the pool of readers which is made of it
(src/readers/pool_reader.rs): C48, C43.
-/
namespace Tftp

/-- src/map.rs:5-7 `Map`: an array of at most `cap` entries. -/
abbrev FMap (K V : Type) := List (K × V)

variable {K V : Type} [DecidableEq K]

/-- src/map.rs:128-133, 118-126, 107-116 `get`, `get_mut`, `contains_key`: the first entry with the key. -/
def FMap.get (m : FMap K V) (k : K) : Option V := (m.find? fun e => e.1 == k).map (·.2)

/-- src/map.rs:135-141 `remove`: `iter().position` and `pop_at`: the entry is taken out, the rest keeps its order. -/
def FMap.remove (m : FMap K V) (k : K) : FMap K V × Option V :=
  match m with
  | [] => ([], none)
  | e :: r => if e.1 = k then (r, some e.2) else (e :: (FMap.remove r k).1, (FMap.remove r k).2)

/-- `ArrayVec::try_push`. -/
def FMap.push (cap : Nat) (m : FMap K V) (k : K) (v : V) : Option (FMap K V) := if m.length < cap then some (m ++ [(k, v)]) else none

/-- src/map.rs:96-105 `insert`: the map, and the replaced value or the failure. -/
def FMap.insert (cap : Nat) (m : FMap K V) (k : K) (v : V) : FMap K V × Except V (Option V) :=
  let r := m.remove k
  match r.1.push cap k v with
  | some m' => (m', .ok r.2)
  | none => (r.1, .error v)

/-- src/map.rs:80-94, 58-62 `entry(k)`: for a vacant entry `insert`; `none` when the entry is occupied. -/
def FMap.entryInsert (cap : Nat) (m : FMap K V) (k : K) (v : V) : FMap K V × Option (Except V Unit) :=
  if m.any (fun e => e.1 == k) then (m, none)
  else match m.push cap k v with
    | some m' => (m', some (.ok ()))
    | none => (m, some (.error v))

/-- src/map.rs:143-148 `retain`; src/map.rs:47-49 `OccupiedEntry::remove` is `retain` with `k ≠ key`. -/
def FMap.retain (m : FMap K V) (f : K → V → Bool) : FMap K V := m.filter fun e => f e.1 e.2

/-- Change through `get_mut` or an occupied entry: src/map.rs:118-126, 39-45. -/
def FMap.update (m : FMap K V) (k : K) (f : V → V) : FMap K V :=
  match m with
  | [] => []
  | e :: r => if e.1 = k then (e.1, f e.2) :: r else e :: FMap.update r k f

/-- The operations which change a map. -/
inductive MapOp (K V : Type)
  | insert (k : K) (v : V)
  | entryInsert (k : K) (v : V)
  | remove (k : K)
  | retain (f : K → V → Bool)
  | update (k : K) (f : V → V)

def FMap.op (cap : Nat) (m : FMap K V) : MapOp K V → FMap K V
  | .insert k v => (m.insert cap k v).1
  | .entryInsert k v => (m.entryInsert cap k v).1
  | .remove k => (m.remove k).1
  | .retain f => m.retain f
  | .update k f => m.update k f

def FMap.run (cap : Nat) (ops : List (MapOp K V)) : FMap K V := ops.foldl (FMap.op cap) []

/-! ### C48: specification -/

/-- Specification: a finite map: the value of each key, and the number of keys. -/
structure Spec.Finite (K V : Type) where
  val : K → Option V
  size : Nat

/-- `m` represents `s`: same lookups, keys are unique, the number of entries is the size. -/
def Spec.Represents (m : FMap K V) (s : Spec.Finite K V) : Prop :=
  (∀ k, m.get k = s.val k) ∧ (m.map (·.1)).Nodup ∧ m.length = s.size

theorem get_cons (e : K × V) (m : FMap K V) (k : K) : FMap.get (e :: m) k = if e.1 = k then some e.2 else FMap.get m k := by
  unfold FMap.get
  by_cases h : e.1 = k
  · simp [h]
  · simp [h]

theorem get_none_iff (m : FMap K V) (k : K) : m.get k = none ↔ k ∉ m.map (·.1) := by
  induction m with
  | nil => simp [FMap.get]
  | cons e m ih =>
    rw [get_cons]
    by_cases h : e.1 = k
    · simp [h]
    · simp only [if_neg h, ih, List.map_cons, List.mem_cons, not_or]
      exact ⟨fun h' => ⟨fun x => h x.symm, h'⟩, fun h' => h'.2⟩

theorem get_append (m : FMap K V) (k' : K) (v : V) (k : K) :
    FMap.get (m ++ [(k', v)]) k = (m.get k).or (if k' = k then some v else none) := by
  induction m with
  | nil => rw [List.nil_append, get_cons]; simp [FMap.get]
  | cons e m ih =>
    rw [List.cons_append, get_cons, get_cons, ih]
    by_cases h : e.1 = k <;> simp [h]

theorem remove_get (m : FMap K V) (hnd : (m.map (·.1)).Nodup) (k k' : K) :
    (m.remove k).1.get k' = (if k = k' then none else m.get k') ∧ (m.remove k).2 = m.get k ∧
    (m.remove k).1.length = m.length - (if (m.get k).isSome then 1 else 0) ∧
    ((m.remove k).1.map (·.1)).Sublist (m.map (·.1)) := by
  induction m with
  | nil => simp [FMap.remove, FMap.get]
  | cons e m ih =>
    simp only [List.map_cons, List.nodup_cons] at hnd
    obtain ⟨i1, i2, i3, i4⟩ := ih hnd.2
    unfold FMap.remove
    by_cases h : e.1 = k
    · rw [if_pos h]
      simp only
      refine ⟨?_, ?_, ?_, ?_⟩
      · rw [get_cons]
        by_cases hk : k = k'
        · rw [if_pos hk, get_none_iff, ← hk, ← h]; exact hnd.1
        · rw [if_neg hk, if_neg (by rw [h]; exact hk)]
      · rw [get_cons, if_pos h]
      · rw [get_cons, if_pos h]; simp
      · exact List.sublist_cons_self _ _
    · rw [if_neg h]
      simp only
      refine ⟨?_, ?_, ?_, ?_⟩
      · rw [get_cons, get_cons, i1]
        by_cases hk : k = k'
        · rw [if_pos hk, if_neg (by rw [← hk]; exact h), if_pos hk]
        · rw [if_neg hk, if_neg hk]
      · rw [get_cons, if_neg h]; exact i2
      · rw [get_cons, if_neg h, List.length_cons, i3, List.length_cons]
        split
        · rename_i hs
          have : m.length ≠ 0 := by
            intro h0
            rw [List.length_eq_zero_iff.mp h0] at hs
            simp [FMap.get] at hs
          omega
        · omega
      · exact i4.cons_cons _

theorem update_keys (m : FMap K V) (k : K) (f : V → V) : (m.update k f).map (·.1) = m.map (·.1) := by
  induction m with
  | nil => rfl
  | cons e m ih =>
    unfold FMap.update
    split <;> simp [ih]

theorem update_get (m : FMap K V) (k k' : K) (f : V → V) :
    (m.update k f).get k' = if k = k' then (m.get k').map f else m.get k' := by
  induction m with
  | nil => simp [FMap.update, FMap.get]
  | cons e m ih =>
    unfold FMap.update
    by_cases h : e.1 = k
    · rw [if_pos h, get_cons, get_cons]
      by_cases hk : k = k'
      · rw [if_pos hk, if_pos (h.trans hk), if_pos (h.trans hk)]; rfl
      · rw [if_neg hk, if_neg (by rw [h]; exact hk), if_neg (by rw [h]; exact hk)]
    · rw [if_neg h, get_cons, get_cons, ih]
      by_cases hk : k = k'
      · rw [if_pos hk, if_pos hk, if_neg (by rw [← hk]; exact h), if_neg (by rw [← hk]; exact h)]
      · rw [if_neg hk, if_neg hk]

/-- **C48**: what each operation does to a finite map of capacity `cap`. Inserting a new key fails exactly when the map is full, and
then changes nothing; inserting a present key never fails and returns the old value. -/
theorem c48_insert (cap : Nat) (m : FMap K V) (s : Spec.Finite K V) (h : Spec.Represents m s) (hc : s.size ≤ cap) (k : K) (v : V) :
    if s.val k = none ∧ s.size = cap then Spec.Represents (m.insert cap k v).1 s ∧ (m.insert cap k v).2 = .error v
    else Spec.Represents (m.insert cap k v).1
        ⟨fun k' => if k = k' then some v else s.val k', if s.val k = none then s.size + 1 else s.size⟩ ∧
      (m.insert cap k v).2 = .ok (s.val k) := by
  obtain ⟨h1, h2, h3⟩ := h
  have hr := remove_get m h2 k
  have hrem : m.get k = none → (m.remove k).1 = m := by
    clear h1 h2 h3 hr
    intro hk
    induction m with
    | nil => rfl
    | cons e m ih =>
      rw [get_cons] at hk
      by_cases he : e.1 = k
      · rw [if_pos he] at hk; cases hk
      · rw [if_neg he] at hk
        unfold FMap.remove
        rw [if_neg he, ih hk]
  unfold FMap.insert FMap.push
  simp only
  have hlen := (hr k).2.2.1
  have hnot : k ∉ (m.remove k).1.map (·.1) := by rw [← get_none_iff, (hr k).1, if_pos rfl]
  have ok : (m.remove k).1.length < cap → Spec.Represents ((m.remove k).1 ++ [(k, v)])
      ⟨fun k' => if k = k' then some v else s.val k', if s.val k = none then s.size + 1 else s.size⟩ := by
    intro hl
    refine ⟨?_, ?_, ?_⟩
    · intro k'
      rw [get_append, (hr k').1]
      by_cases hk : k = k'
      · simp [hk]
      · simp only [if_neg hk, ← h1 k']; cases m.get k' <;> rfl
    · rw [List.map_append, List.nodup_append]
      refine ⟨(hr k).2.2.2.nodup h2, by simp, ?_⟩
      intro a ha b hb
      simp only [List.map_cons, List.map_nil, List.mem_singleton] at hb
      rintro rfl
      exact hnot (hb ▸ ha)
    · simp only [List.length_append, List.length_cons, List.length_nil, hlen, h3, h1 k]
      cases hv : s.val k with
      | none => simp
      | some x =>
        simp only [Option.isSome_some, if_true, reduceCtorEq, if_false]
        have : m.length ≠ 0 := by
          intro h0
          rw [List.length_eq_zero_iff.mp h0] at h1
          have := h1 k
          rw [hv] at this
          simp [FMap.get] at this
        omega
  by_cases hf : s.val k = none ∧ s.size = cap
  · rw [if_pos hf]
    have hk : m.get k = none := by rw [h1]; exact hf.1
    rw [hrem hk, if_neg (by omega)]
    exact ⟨⟨h1, h2, h3⟩, rfl⟩
  · rw [if_neg hf]
    have hl : (m.remove k).1.length < cap := by
      rw [hlen, h1 k, h3]
      cases hv : s.val k with
      | none =>
        have : s.size ≠ cap := fun h => hf ⟨hv, h⟩
        simp only [Option.isSome_none, Bool.false_eq_true, if_false]
        omega
      | some x =>
        simp only [Option.isSome_some, if_true]
        have : m.length ≠ 0 := by
          intro h0
          rw [List.length_eq_zero_iff.mp h0] at h1
          have := h1 k
          rw [hv] at this
          simp [FMap.get] at this
        omega
    rw [if_pos hl]
    exact ⟨ok hl, by rw [(hr k).2.1, h1]⟩

/-- **C48**: inserting through an entry. -/
theorem c48_entry (cap : Nat) (m : FMap K V) (s : Spec.Finite K V) (h : Spec.Represents m s) (k : K) (v : V) :
    match s.val k with
    | some _ => m.entryInsert cap k v = (m, none)
    | none =>
      if s.size < cap then Spec.Represents (m.entryInsert cap k v).1 ⟨fun k' => if k = k' then some v else s.val k', s.size + 1⟩ ∧
        (m.entryInsert cap k v).2 = some (.ok ())
      else m.entryInsert cap k v = (m, some (.error v)) := by
  obtain ⟨h1, h2, h3⟩ := h
  have hany : (m.any fun e => e.1 == k) = (m.get k).isSome := by
    clear h1 h2 h3
    induction m with
    | nil => rfl
    | cons e m ih =>
      rw [get_cons, List.any_cons, ih]
      by_cases he : e.1 = k <;> simp [he]
  unfold FMap.entryInsert
  rw [hany, h1 k]
  cases hv : s.val k with
  | some x => rfl
  | none =>
    simp only [Option.isSome_none, Bool.false_eq_true, if_false, FMap.push, h3]
    by_cases hc : s.size < cap
    · rw [if_pos hc, if_pos hc]
      refine ⟨⟨?_, ?_, by simp [h3]⟩, rfl⟩
      · intro k'
        rw [get_append, h1 k']
        by_cases hk : k = k'
        · subst hk; simp [hv]
        · simp only [if_neg hk]; cases s.val k' <;> rfl
      · have hnot : k ∉ m.map (·.1) := by rw [← get_none_iff, h1 k]; exact hv
        rw [List.map_append, List.nodup_append]
        refine ⟨h2, by simp, ?_⟩
        intro a ha b hb
        simp only [List.map_cons, List.map_nil, List.mem_singleton] at hb
        rintro rfl
        exact hnot (hb ▸ ha)
    · rw [if_neg hc, if_neg hc]

theorem retain_get (m : FMap K V) (hnd : (m.map (·.1)).Nodup) (f : K → V → Bool) (k : K) :
    (m.retain f).get k = (m.get k).filter (f k) := by
  induction m with
  | nil => rfl
  | cons e m ih =>
    simp only [List.map_cons, List.nodup_cons] at hnd
    have ih := ih hnd.2
    unfold FMap.retain at ih ⊢
    rw [List.filter_cons, get_cons]
    by_cases he : e.1 = k
    · have hn : FMap.get m k = none := by rw [get_none_iff, ← he]; exact hnd.1
      rw [if_pos he]
      split
      · rename_i hf
        rw [get_cons, if_pos he]
        simp [Option.filter, ← he, hf]
      · rename_i hf
        rw [ih, hn]
        simp only [Option.filter, ← he]
        simp [hf]
    · rw [if_neg he]
      split
      · rw [get_cons, if_neg he, ih]
      · exact ih

/-- **C48**: removing, retaining and changing. -/
theorem c48_remove (m : FMap K V) (s : Spec.Finite K V) (h : Spec.Represents m s) (k : K) :
    Spec.Represents (m.remove k).1 ⟨fun k' => if k = k' then none else s.val k', if s.val k = none then s.size else s.size - 1⟩ ∧
    (m.remove k).2 = s.val k := by
  obtain ⟨h1, h2, h3⟩ := h
  have hr := remove_get m h2 k
  refine ⟨⟨?_, (hr k).2.2.2.nodup h2, ?_⟩, by rw [(hr k).2.1, h1]⟩
  · intro k'; rw [(hr k').1, h1]
  · rw [(hr k).2.2.1, h1, h3]; cases s.val k <;> simp

theorem c48_retain (m : FMap K V) (s : Spec.Finite K V) (h : Spec.Represents m s) (f : K → V → Bool) :
    ∃ n ≤ s.size, Spec.Represents (m.retain f) ⟨fun k => (s.val k).filter (f k), n⟩ := by
  obtain ⟨h1, h2, h3⟩ := h
  refine ⟨(m.retain f).length, by rw [← h3]; exact List.length_filter_le _ _, ?_, ?_, rfl⟩
  · intro k; rw [retain_get m h2 f k, h1]
  · exact (List.filter_sublist.map _).nodup h2

theorem c48_update (m : FMap K V) (s : Spec.Finite K V) (h : Spec.Represents m s) (k : K) (f : V → V) :
    Spec.Represents (m.update k f) ⟨fun k' => if k = k' then (s.val k').map f else s.val k', s.size⟩ := by
  obtain ⟨h1, h2, h3⟩ := h
  refine ⟨?_, by rw [update_keys]; exact h2, ?_⟩
  · intro k'; rw [update_get, h1]
  · rw [← h3]
    have := congrArg List.length (update_keys m k f)
    simpa using this

/-- **C48**: every map reached by any operations represents some finite map of at most `cap` keys. -/
theorem c48_all_histories (cap : Nat) (ops : List (MapOp K V)) :
    ∃ s : Spec.Finite K V, Spec.Represents (FMap.run cap ops) s ∧ s.size ≤ cap := by
  have key : ∀ (ops : List (MapOp K V)) (m : FMap K V) (s : Spec.Finite K V), Spec.Represents m s → s.size ≤ cap →
      ∃ s' : Spec.Finite K V, Spec.Represents (ops.foldl (FMap.op cap) m) s' ∧ s'.size ≤ cap := by
    intro ops
    induction ops with
    | nil => exact fun m s h1 h2 => ⟨s, h1, h2⟩
    | cons o ops ih =>
      intro m s h1 h2
      rw [List.foldl_cons]
      cases o with
      | insert k v =>
        have := c48_insert cap m s h1 h2 k v
        split at this
        · exact ih _ _ this.1 h2
        · rename_i hn
          refine ih _ _ this.1 ?_
          simp only
          split
          · rename_i hv
            have : s.size ≠ cap := fun h => hn ⟨hv, h⟩
            omega
          · exact h2
      | entryInsert k v =>
        have := c48_entry cap m s h1 k v
        simp only [FMap.op]
        split at this
        · rw [this]; exact ih _ _ h1 h2
        · split at this
          · exact ih _ _ this.1 (by simp only; omega)
          · rw [this]; exact ih _ _ h1 h2
      | remove k => exact ih _ _ (c48_remove m s h1 k).1 (by simp only; split <;> omega)
      | retain f =>
        obtain ⟨n, hn, h⟩ := c48_retain m s h1 f
        exact ih _ _ h (by simp only; omega)
      | update k f => exact ih _ _ (c48_update m s h1 k f) h2
  exact key ops [] ⟨fun _ => none, 0⟩ ⟨fun _ => rfl, List.nodup_nil, rfl⟩ (Nat.zero_le _)

/-- A full map: a new key is refused, a present one replaced, and after a removal there is room again. -/
example : ((FMap.run 2 [.insert 1 10, .insert 2 20, .insert 3 30, .insert 1 11] : FMap Nat Nat) = [(2, 20), (1, 11)]) ∧
    ((FMap.run 2 [.insert 1 10, .insert 2 20, .remove 1, .entryInsert 3 30] : FMap Nat Nat) = [(2, 20), (3, 30)]) ∧
    Spec.Represents ([(2, 20), (1, 11)] : FMap Nat Nat) ⟨fun k => if k = 2 then some 20 else if k = 1 then some 11 else none, 2⟩ := by
  refine ⟨by decide, by decide, ?_, by decide, rfl⟩
  intro k
  rw [get_cons, get_cons]
  simp [FMap.get, eq_comm]

/-! ### C43: the pool -/

/-- `u16::MAX`: slots are numbered `0..u16::MAX`. -/
def poolKeys : Nat := 65535

/-- The first free key: `(0..u16::MAX).find(|k| !p.contains_key(k))`. -/
def freeKey (m : FMap Nat V) : Option Nat := (List.range poolKeys).find? fun k => (m.get k).isNone

/-- The insertion into the slot which was found; `none`: there was none, or the insertion failed. -/
def poolPut (cap : Nat) (m : FMap Nat V) (v : V) : Option Nat → FMap Nat V × Option Nat
  | none => (m, none)
  | some k => match m.insert cap k v with
    | (m', .ok _) => (m', some k)
    | (m', .error _) => (m', none)

/-- src/readers/pool_reader.rs:37-49, 51-63, 65-78 `from_single`, `from_multi`, `from_seek`: the pool, and the slot of the new
reader. -/
def poolNew (cap : Nat) (m : FMap Nat V) (v : V) : FMap Nat V × Option Nat := poolPut cap m v (freeKey m)

/-- What the owners of readers do: create one, use the one in a slot (src/readers/pool_reader.rs:85-159: `get_mut(..).expect`),
drop it (:161-175). Owners are identified by the number of the creation. -/
inductive PoolOp (V : Type)
  | create (v : V)
  | use (owner : Nat) (f : V → V)
  | drop (owner : Nat)

/-- The pool and the handles which are alive: owner and slot; `next` numbers the creations. -/
structure PoolSt (V : Type) where
  pool : FMap Nat V
  live : List (Nat × Nat)
  next : Nat

/-- The state after a creation: a new handle if the creation succeeded. -/
def PoolSt.created (s : PoolSt V) (r : FMap Nat V × Option Nat) : PoolSt V :=
  match r with
  | (m, some k) => ⟨m, (s.next, k) :: s.live, s.next + 1⟩
  | (m, none) => ⟨m, s.live, s.next + 1⟩

/-- One operation; using or dropping a handle is possible only while it is alive (Rust ownership). -/
def PoolSt.op (cap : Nat) (s : PoolSt V) : PoolOp V → PoolSt V
  | .create v => s.created (poolNew cap s.pool v)
  | .use o f => match FMap.get s.live o with
    | some k => { s with pool := s.pool.update k f }
    | none => s
  | .drop o => match FMap.get s.live o with
    | some k => { s with pool := (s.pool.remove k).1, live := (FMap.remove s.live o).1 }
    | none => s

def PoolSt.run (cap : Nat) (ops : List (PoolOp V)) : PoolSt V := ops.foldl (PoolSt.op cap) ⟨[], [], 0⟩

/-- Specification: each owner has a reader of its own. -/
structure Spec.Owners (V : Type) where
  own : Nat → Option V
  alive : Nat
  next : Nat

/-- Specification: a creation succeeds exactly if fewer than `cap` readers are alive; using or dropping one concerns that one only. -/
def Spec.Owners.op (cap : Nat) (s : Spec.Owners V) : PoolOp V → Spec.Owners V
  | .create v => if s.alive < cap then ⟨fun o => if o = s.next then some v else s.own o, s.alive + 1, s.next + 1⟩
    else { s with next := s.next + 1 }
  | .use o f => { s with own := fun o' => if o' = o then (s.own o').map f else s.own o' }
  | .drop o => match s.own o with
    | some _ => { s with own := fun o' => if o' = o then none else s.own o', alive := s.alive - 1 }
    | none => s

def Spec.Owners.run (cap : Nat) (ops : List (PoolOp V)) : Spec.Owners V :=
  ops.foldl (Spec.Owners.op cap) ⟨fun _ => none, 0, 0⟩

/-- Link between the pool and the specification. -/
structure PoolInv (cap : Nat) (s : PoolSt V) (a : Spec.Owners V) : Prop where
  pool : (s.pool.map (·.1)).Nodup
  live : (s.live.map (·.1)).Nodup
  slots : (s.live.map (·.2)).Nodup
  keys : s.pool.length = s.live.length
  bound : s.live.length ≤ cap
  count : s.live.length = a.alive
  next : s.next = a.next
  fresh : ∀ o ∈ s.live.map (·.1), o < s.next
  val : ∀ o, a.own o = (FMap.get s.live o).bind s.pool.get
  here : ∀ o k, FMap.get s.live o = some k → (s.pool.get k).isSome

attribute [local irreducible] poolKeys

/-- Pigeonhole: a list of different elements is not longer than a list which contains them all. -/
theorem nodup_subset_length {α : Type} [DecidableEq α] : ∀ (l l' : List α), l.Nodup → l ⊆ l' → l.length ≤ l'.length
  | [], _, _, _ => Nat.zero_le _
  | a :: l, l', hn, hs => by
    have hn' := List.nodup_cons.mp hn
    have ha : a ∈ l' := hs List.mem_cons_self
    have := nodup_subset_length l (l'.erase a) hn'.2 (fun x hx =>
      (List.mem_erase_of_ne (a := x) (b := a) (fun e => hn'.1 (e ▸ hx))).mpr (hs (List.mem_cons_of_mem _ hx)))
    rw [List.length_erase_of_mem ha] at this
    have := List.length_pos_of_mem ha
    simp only [List.length_cons]
    omega

theorem freeKey_some (m : FMap Nat V) (h : m.length < poolKeys) : ∃ k, freeKey m = some k ∧ m.get k = none := by
  cases hk : freeKey m with
  | some k =>
    have := List.find?_some hk
    exact ⟨k, rfl, by simpa using this⟩
  | none =>
    exfalso
    unfold freeKey at hk
    rw [List.find?_eq_none] at hk
    have hsub : List.range poolKeys ⊆ m.map (·.1) := by
      intro k hk'
      have := hk k hk'
      apply Classical.byContradiction
      intro hn
      rw [← get_none_iff] at hn
      simp [hn] at this
    have hl := nodup_subset_length _ _ List.nodup_range hsub
    simp only [List.length_range, List.length_map] at hl
    omega

theorem get_mem {m : FMap Nat V} {k : Nat} {v : V} (h : m.get k = some v) : (k, v) ∈ m := by
  induction m with
  | nil => simp [FMap.get] at h
  | cons e m ih =>
    rw [get_cons] at h
    split at h
    · rename_i he
      cases h
      rw [← he]
      exact List.mem_cons_self
    · exact List.mem_cons_of_mem _ (ih h)

theorem get_of_mem {m : FMap Nat V} (hnd : (m.map (·.1)).Nodup) {k : Nat} {v : V} (h : (k, v) ∈ m) : m.get k = some v := by
  induction m with
  | nil => cases h
  | cons e m ih =>
    simp only [List.map_cons, List.nodup_cons, List.mem_map, not_exists, not_and] at hnd
    rw [get_cons]
    rcases List.mem_cons.mp h with q | q
    · rw [← q, if_pos rfl]
    · rw [if_neg (fun he => hnd.1 _ q he.symm)]
      exact ih hnd.2 q

theorem slot_owner {live : FMap Nat Nat} (hs : (live.map (·.2)).Nodup) {o o' k : Nat} (h : live.get o = some k)
    (h' : live.get o' = some k) : o = o' := by
  have h1 := get_mem h
  have h2 := get_mem h'
  clear h h'
  induction live with
  | nil => cases h1
  | cons e m ih =>
    simp only [List.map_cons, List.nodup_cons, List.mem_map, not_exists, not_and] at hs
    rcases List.mem_cons.mp h1 with g1 | g1 <;> rcases List.mem_cons.mp h2 with g2 | g2
    · rw [← g1] at g2; exact (Prod.mk.inj g2).1.symm
    · exact absurd (by rw [← g1]) (hs.1 _ g2)
    · exact absurd (by rw [← g2]) (hs.1 _ g1)
    · exact ih hs.2 g1 g2

theorem remove_slots (live : FMap Nat Nat) (o : Nat) : ((live.remove o).1.map (·.2)).Sublist (live.map (·.2)) := by
  induction live with
  | nil => exact .refl _
  | cons e m ih =>
    unfold FMap.remove
    split
    · exact List.sublist_cons_self _ _
    · exact ih.cons_cons _

theorem pool_step {cap : Nat} (hcap : cap < poolKeys) {s : PoolSt V} {a : Spec.Owners V} (h : PoolInv cap s a) (op : PoolOp V) :
    PoolInv cap (s.op cap op) (a.op cap op) := by
  cases op with
  | create v =>
    have hlt : s.pool.length < poolKeys := by rw [h.keys]; have := h.bound; omega
    obtain ⟨k, hk, hg⟩ := freeKey_some s.pool hlt
    have hrep : Spec.Represents s.pool ⟨s.pool.get, s.pool.length⟩ := ⟨fun _ => rfl, h.pool, rfl⟩
    have hin := c48_insert cap s.pool _ hrep (by simp only; rw [h.keys]; exact h.bound) k v
    simp only [hg] at hin
    simp only [PoolSt.op, poolNew, hk, poolPut, Spec.Owners.op, PoolSt.created]
    by_cases hfull : s.pool.length = cap
    · rw [if_pos ⟨trivial, hfull⟩] at hin
      obtain ⟨h1, h2⟩ := hin
      have hm : ((s.pool).insert cap k v).1 = s.pool := by
        unfold FMap.insert FMap.push
        have hrem : (FMap.remove s.pool k).1 = s.pool := by
          have := (remove_get s.pool h.pool k k).2.2
          rw [hg] at this
          simp only [Option.isSome_none, Bool.false_eq_true, if_false, Nat.sub_zero] at this
          have h3 : ∀ m : FMap Nat V, FMap.get m k = none → (FMap.remove m k).1 = m := by
            intro m
            induction m with
            | nil => intro _; rfl
            | cons e m ih =>
              intro hk
              rw [get_cons] at hk
              by_cases he : e.1 = k
              · rw [if_pos he] at hk; cases hk
              · rw [if_neg he] at hk; unfold FMap.remove; rw [if_neg he, ih hk]
          exact h3 _ hg
        simp only [hrem]
        rw [if_neg (by omega)]
      have e : s.pool.insert cap k v = (s.pool, .error v) := Prod.ext hm h2
      simp only [e]
      rw [if_neg (by rw [← h.count, ← h.keys]; omega)]
      exact ⟨h.pool, h.live, h.slots, h.keys, h.bound, h.count, by simp [h.next], fun o ho => Nat.lt_succ_of_lt (h.fresh o ho),
        h.val, h.here⟩
    · rw [if_neg (fun hc => hfull hc.2)] at hin
      obtain ⟨⟨g1, g2, g3⟩, h2⟩ := hin
      obtain ⟨m', e⟩ : ∃ m', s.pool.insert cap k v = (m', .ok none) := ⟨_, by rw [← h2]⟩
      rw [e] at g1 g2 g3
      simp only at g1 g2 g3
      simp only [e]
      simp only [if_true] at g3
      have hlive : s.live.length < cap := by have := h.bound; have := h.keys; omega
      rw [if_pos (by rw [← h.count]; exact hlive)]
      have hk' : k ∉ s.live.map (·.2) := by
        intro hm
        obtain ⟨⟨o, k'⟩, hx, rfl⟩ := List.mem_map.mp hm
        have hgo : FMap.get s.live o = some k' := get_of_mem h.live hx
        have := h.here o k' hgo
        rw [hg] at this
        cases this
      have hnext : s.next ∉ s.live.map (·.1) := fun hm => Nat.lt_irrefl _ (h.fresh _ hm)
      refine ⟨g2, ?_, ?_, ?_, ?_, ?_, by simp [h.next], ?_, ?_, ?_⟩
      · simp only [List.map_cons, List.nodup_cons]; exact ⟨hnext, h.live⟩
      · simp only [List.map_cons, List.nodup_cons]; exact ⟨hk', h.slots⟩
      · simp only [List.length_cons]; rw [g3, h.keys]
      · simp only [List.length_cons]; omega
      · simp only [List.length_cons, h.count]
      · intro o ho
        simp only [List.map_cons, List.mem_cons] at ho
        rcases ho with rfl | ho
        · exact Nat.lt_succ_self _
        · exact Nat.lt_succ_of_lt (h.fresh o ho)
      · intro o
        simp only
        rw [get_cons, ← h.next]
        by_cases ho : o = s.next
        · rw [if_pos ho, if_pos ho.symm, Option.bind_some, g1 k, if_pos rfl]
        · rw [if_neg ho, if_neg (fun x => ho x.symm), h.val o]
          cases hgo : FMap.get s.live o with
          | none => rfl
          | some k2 =>
            have : k ≠ k2 := fun x => hk' (x ▸ List.mem_map.mpr ⟨_, get_mem hgo, rfl⟩)
            rw [Option.bind_some, Option.bind_some, g1 k2, if_neg this]
      · intro o k2 ho
        rw [get_cons] at ho
        split at ho
        · cases ho; rw [g1 k, if_pos rfl]; rfl
        · rw [g1 k2]
          split
          · rfl
          · exact h.here o k2 ho
  | use o f =>
    simp only [PoolSt.op, Spec.Owners.op]
    cases hgo : FMap.get s.live o with
    | none =>
      have : a.own o = none := by rw [h.val, hgo]; rfl
      refine ⟨h.pool, h.live, h.slots, h.keys, h.bound, h.count, h.next, h.fresh, ?_, h.here⟩
      intro o'
      simp only
      by_cases ho : o' = o
      · subst ho; rw [if_pos rfl, h.val, hgo]; rfl
      · rw [if_neg ho]; exact h.val o'
    | some k =>
      refine ⟨by simp only; rw [update_keys]; exact h.pool, h.live, h.slots, ?_, h.bound, h.count, h.next, h.fresh, ?_, ?_⟩
      · have := congrArg List.length (update_keys s.pool k f)
        simp only [List.length_map] at this
        simp only [this]; exact h.keys
      · intro o'
        simp only
        by_cases ho : o' = o
        · subst ho; rw [if_pos rfl, h.val, hgo, Option.bind_some, Option.bind_some, update_get, if_pos rfl]
        · rw [if_neg ho, h.val o']
          cases hgo' : FMap.get s.live o' with
          | none => rfl
          | some k' =>
            have : k ≠ k' := fun x => ho (slot_owner h.slots hgo' (x ▸ hgo))
            rw [Option.bind_some, Option.bind_some, update_get, if_neg this]
      · intro o' k' ho'
        simp only at ho' ⊢
        rw [update_get]
        have := h.here o' k' ho'
        split
        · simpa using this
        · exact this
  | drop o =>
    simp only [PoolSt.op, Spec.Owners.op]
    cases hgo : FMap.get s.live o with
    | none =>
      have : a.own o = none := by rw [h.val, hgo]; rfl
      rw [this]
      exact h
    | some k =>
      obtain ⟨v, hv⟩ := Option.isSome_iff_exists.mp (h.here o k hgo)
      have hown : a.own o = some v := by rw [h.val, hgo]; exact hv
      rw [hown]
      have rp := remove_get s.pool h.pool k
      have rl := remove_get s.live h.live o
      refine ⟨(rp k).2.2.2.nodup h.pool, (rl o).2.2.2.nodup h.live, (remove_slots _ _).nodup h.slots, ?_, ?_, ?_, h.next, ?_, ?_, ?_⟩
      · simp only; rw [(rp k).2.2.1, (rl o).2.2.1, hv, hgo]; simp [h.keys]
      · simp only; rw [(rl o).2.2.1]; have := h.bound; omega
      · simp only; rw [(rl o).2.2.1, hgo]; simp [h.count]
      · intro o' ho'; exact h.fresh o' ((rl o).2.2.2.subset ho')
      · intro o'
        simp only
        rw [(rl o').1]
        by_cases ho : o' = o
        · rw [if_pos ho, if_pos ho.symm]; rfl
        · rw [if_neg ho, if_neg (fun x => ho x.symm), h.val o']
          cases hgo' : FMap.get s.live o' with
          | none => rfl
          | some k' =>
            have : k ≠ k' := fun x => ho (slot_owner h.slots hgo' (x ▸ hgo))
            rw [Option.bind_some, Option.bind_some, (rp k').1, if_neg this]
      · intro o' k' ho'
        simp only at ho' ⊢
        rw [(rl o').1] at ho'
        split at ho'
        · cases ho'
        · rename_i hne
          have : k ≠ k' := fun x => hne (slot_owner h.slots (x ▸ hgo) ho')
          rw [(rp k').1, if_neg this]
          exact h.here o' k' ho'

/-- **C43**: in every history of creations, uses and drops, the pool behaves as if each owner had a reader of its own: the
slots of the readers which are alive are pairwise different, an owner finds in its slot exactly its own reader as changed by its
own uses, a creation fails exactly when `cap` readers are alive, and the `expect` on the slot of a live owner never panics. -/
theorem c43_pool (cap : Nat) (hcap : cap < 65535) (ops : List (PoolOp V)) :
    ((PoolSt.run cap ops).live.map (·.2)).Nodup ∧
    (∀ o, (FMap.get (PoolSt.run cap ops).live o).bind (PoolSt.run cap ops).pool.get = (Spec.Owners.run cap ops).own o) ∧
    (PoolSt.run cap ops).live.length = (Spec.Owners.run cap ops).alive ∧
    (∀ o k, FMap.get (PoolSt.run cap ops).live o = some k → (FMap.get (PoolSt.run cap ops).pool k).isSome) := by
  have key : ∀ (ops : List (PoolOp V)) (s : PoolSt V) (a : Spec.Owners V), PoolInv cap s a →
      PoolInv cap (ops.foldl (PoolSt.op cap) s) (ops.foldl (Spec.Owners.op cap) a) := by
    intro ops
    induction ops with
    | nil => exact fun _ _ h => h
    | cons o ops ih => exact fun s a h => ih _ _ (pool_step (by unfold poolKeys; exact hcap) h o)
  have h := key ops ⟨[], [], 0⟩ ⟨fun _ => none, 0, 0⟩
    ⟨List.nodup_nil, List.nodup_nil, List.nodup_nil, rfl, Nat.zero_le _, rfl, rfl, by simp, fun _ => rfl, fun o k h => by cases h⟩
  exact ⟨h.slots, fun o => (h.val o).symm, h.count, h.here⟩

/-- Two readers, a third one does not fit; the first one is dropped and its slot is used again. -/
example : (PoolSt.run 2 [.create 7, .create 8, .create 9, .use 1 (· + 1), .drop 0, .create (5 : Nat)]).pool = [(1, 9), (0, 5)] := by
  decide +kernel

end Tftp

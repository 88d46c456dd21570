import Verif.Pool
/-
C48 for whole histories: whatever is done to a map of a build without allocator (src/map.rs), in any order, all answers are those of
a finite map of bounded size whose keys are kept in the order in which their values were stored.
-/
namespace Tftp

variable {K V : Type} [DecidableEq K]

/-- What can be asked of a map. `fill`: `FromIterator` (the map is made anew). -/
inductive MapCall (K V : Type)
  | insert (k : K) (v : V)
  | entryInsert (k : K) (v : V)
  | entryRemove (k : K)
  | remove (k : K)
  | retain (f : K → V → Bool)
  | update (k : K) (f : V → V)
  | get (k : K)
  | contains (k : K)
  | index (k : K)
  | len
  | isEmpty
  | iter
  | fill (l : List (K × V))

/-- What is answered. -/
inductive MapAns (K V : Type)
  | unit
  | panic
  | value (v : Option V)
  | stored (r : Except V (Option V))
  | entered (r : Option (Except V Unit))
  | bool (b : Bool)
  | count (n : Nat)
  | all (l : List (K × V))

/-- src/map.rs:201-212 `FromIterator::from_iter`: entries for which there is no room are dropped. -/
def FMap.fill (cap : Nat) (l : List (K × V)) : FMap K V := l.foldl (fun m e => (m.insert cap e.1 e.2).1) []

/-- src/map.rs:107-116 `contains_key`. -/
def FMap.contains (m : FMap K V) (k : K) : Bool := match (m.find? fun e => e.1 == k).map (fun _ => true) with
  | some b => b
  | none => false

/-- One call: the map and the answer. `entry(k)` followed by `insert` (vacant) or `remove` (occupied): src/map.rs:80-94, 56-62, 46-48;
`get_mut` followed by a change: 118-126 (the answer: whether the key was there); `index`: 159-173; `len`, `is_empty`, `iter`: 72-78,
150-152, 184-191. -/
def FMap.call (cap : Nat) (m : FMap K V) : MapCall K V → FMap K V × MapAns K V
  | .insert k v => ((m.insert cap k v).1, .stored (m.insert cap k v).2)
  | .entryInsert k v => ((m.entryInsert cap k v).1, .entered (m.entryInsert cap k v).2)
  | .entryRemove k => if m.any (fun e => e.1 == k) then (m.retain fun k' _ => decide (k' ≠ k), .bool true) else (m, .bool false)
  | .remove k => ((m.remove k).1, .value (m.remove k).2)
  | .retain f => (m.retain f, .unit)
  | .update k f => (m.update k f, .value (m.get k))
  | .get k => (m, .value (m.get k))
  | .contains k => (m, .bool (m.contains k))
  | .index k => (m, match (m.find? fun e => e.1 == k).map (·.2) with | some v => .value (some v) | none => .panic)
  | .len => (m, .count m.length)
  | .isEmpty => (m, .bool m.isEmpty)
  | .iter => (m, .all m)
  | .fill l => (FMap.fill cap l, .unit)

/-- The answers to a history of calls. -/
def FMap.answers (cap : Nat) : FMap K V → List (MapCall K V) → List (MapAns K V)
  | _, [] => []
  | m, c :: cs => (m.call cap c).2 :: FMap.answers cap (m.call cap c).1 cs

/-! ### Specification -/

/-- A finite map: the value of each key; the keys which have one, least recently stored first. -/
structure Spec.Map (K V : Type) where
  val : K → Option V
  keys : List K

def Spec.Map.empty : Spec.Map K V := ⟨fun _ => none, []⟩

/-- Storing a value, whether or not there was one; the key becomes the most recent. -/
def Spec.Map.store (s : Spec.Map K V) (k : K) (v : V) : Spec.Map K V :=
  ⟨fun x => if x = k then some v else s.val x, s.keys.filter (fun x => decide (x ≠ k)) ++ [k]⟩

/-- Forgetting the keys which do not satisfy `p`. -/
def Spec.Map.keep (s : Spec.Map K V) (p : K → V → Bool) : Spec.Map K V :=
  ⟨fun x => (s.val x).filter (p x), s.keys.filter fun x => match s.val x with | some v => p x v | none => false⟩

/-- No room for a new key. -/
def Spec.Map.full (s : Spec.Map K V) (cap : Nat) (k : K) : Bool := (s.val k).isNone && decide (cap ≤ s.keys.length)

/-- Storing if there is room. -/
def Spec.Map.offer (cap : Nat) (s : Spec.Map K V) (k : K) (v : V) : Spec.Map K V := if s.full cap k then s else s.store k v

/-- What a map of at most `cap` keys does. -/
def Spec.Map.call (cap : Nat) (s : Spec.Map K V) : MapCall K V → Spec.Map K V × MapAns K V
  | .insert k v => (s.offer cap k v, .stored (if s.full cap k then .error v else .ok (s.val k)))
  | .entryInsert k v => match s.val k with
    | some _ => (s, .entered none)
    | none => (s.offer cap k v, .entered (some (if s.full cap k then .error v else .ok ())))
  | .entryRemove k => (s.keep fun x _ => decide (x ≠ k), .bool (s.val k).isSome)
  | .remove k => (s.keep fun x _ => decide (x ≠ k), .value (s.val k))
  | .retain f => (s.keep f, .unit)
  | .update k f => (⟨fun x => if x = k then (s.val x).map f else s.val x, s.keys⟩, .value (s.val k))
  | .get k => (s, .value (s.val k))
  | .contains k => (s, .bool (s.val k).isSome)
  | .index k => (s, match s.val k with | some v => .value (some v) | none => .panic)
  | .len => (s, .count s.keys.length)
  | .isEmpty => (s, .bool (decide (s.keys = [])))
  | .iter => (s, .all (s.keys.filterMap fun x => (s.val x).map (x, ·)))
  | .fill l => (l.foldl (fun s e => s.offer cap e.1 e.2) Spec.Map.empty, .unit)

def Spec.Map.answers (cap : Nat) : Spec.Map K V → List (MapCall K V) → List (MapAns K V)
  | _, [] => []
  | s, c :: cs => (s.call cap c).2 :: Spec.Map.answers cap (s.call cap c).1 cs

/-! ### Proof -/

/-- The finite map an array stands for. -/
def FMap.meaning (m : FMap K V) : Spec.Map K V := ⟨m.get, m.map (·.1)⟩

def FMap.Unique (m : FMap K V) : Prop := (m.map (·.1)).Nodup

theorem find_isSome (m : FMap K V) (k : K) : (m.any fun e => e.1 == k) = (m.get k).isSome := by
  induction m with
  | nil => rfl
  | cons e m ih =>
    rw [get_cons, List.any_cons, ih]
    by_cases he : e.1 = k <;> simp [he]

theorem contains_eq (m : FMap K V) (k : K) : m.contains k = (m.get k).isSome := by
  unfold FMap.contains FMap.get
  cases m.find? fun e => e.1 == k <;> rfl

theorem remove_eq_filter (m : FMap K V) (h : m.Unique) (k : K) : (m.remove k).1 = m.filter (fun e => decide (e.1 ≠ k)) := by
  induction m with
  | nil => rfl
  | cons e m ih =>
    unfold FMap.Unique at h
    simp only [List.map_cons, List.nodup_cons] at h
    unfold FMap.remove
    by_cases he : e.1 = k
    · rw [if_pos he, List.filter_cons_of_neg (by simp [he])]
      symm
      rw [List.filter_eq_self]
      intro a ha
      simp only [decide_eq_true_eq]
      intro hk
      apply h.1
      rw [he, ← hk]
      exact List.mem_map_of_mem ha
    · rw [if_neg he, List.filter_cons_of_pos (by simp [he])]
      exact congrArg _ (ih h.2)

theorem keys_filter (m : FMap K V) (h : m.Unique) (f : K → V → Bool) :
    (m.filter fun e => f e.1 e.2).map (·.1) = (m.map (·.1)).filter fun x => match m.get x with | some v => f x v | none => false := by
  have key : ∀ l : FMap K V, (∀ e ∈ l, m.get e.1 = some e.2) →
      (l.filter fun e => f e.1 e.2).map (·.1) = (l.map (·.1)).filter fun x => match m.get x with | some v => f x v | none => false := by
    intro l
    induction l with
    | nil => exact fun _ => rfl
    | cons e l ih =>
      intro hl
      have he := hl e List.mem_cons_self
      have := ih fun x hx => hl x (List.mem_cons_of_mem _ hx)
      rw [List.map_cons, List.filter_cons, List.filter_cons, he]
      simp only
      split
      · rw [List.map_cons, this]
      · exact this
  apply key
  intro e he
  clear key
  induction m with
  | nil => cases he
  | cons a m ih =>
    unfold FMap.Unique at h
    simp only [List.map_cons, List.nodup_cons] at h
    rw [get_cons]
    rcases List.mem_cons.mp he with rfl | he
    · simp
    · rw [if_neg, ih h.2 he]
      intro hk
      apply h.1
      rw [hk]
      exact List.mem_map_of_mem he

theorem retain_meaning (m : FMap K V) (h : m.Unique) (f : K → V → Bool) :
    (m.retain f).Unique ∧ (m.retain f).meaning = m.meaning.keep f := by
  constructor
  · exact (List.filter_sublist.map _).nodup h
  · unfold FMap.meaning Spec.Map.keep
    simp only [Spec.Map.mk.injEq]
    exact ⟨funext fun k => retain_get m h f k, keys_filter m h f⟩

theorem remove_meaning (m : FMap K V) (h : m.Unique) (k : K) :
    (m.remove k).1.Unique ∧ (m.remove k).1.meaning = m.meaning.keep fun x _ => decide (x ≠ k) := by
  rw [remove_eq_filter m h k]
  exact retain_meaning m h fun x _ => decide (x ≠ k)

theorem keep_store (m : FMap K V) (k : K) (v : V) :
    m.meaning.store k v = ⟨fun x => if x = k then some v else (m.meaning.keep fun x _ => decide (x ≠ k)).val x,
      (m.meaning.keep fun x _ => decide (x ≠ k)).keys ++ [k]⟩ := by
  unfold Spec.Map.store Spec.Map.keep
  simp only [Spec.Map.mk.injEq]
  constructor
  · funext x
    by_cases hx : x = k
    · simp [hx]
    · rw [if_neg hx, if_neg hx]
      cases h : m.meaning.val x <;> simp [Option.filter, hx]
  · congr 1
    apply List.filter_congr
    intro x hx
    have : m.get x ≠ none := by rw [Ne, get_none_iff]; exact fun h => h hx
    have e : m.meaning.val x = m.get x := rfl
    rw [e]
    cases h : m.get x with
    | none => exact absurd h this
    | some y => rfl

theorem push_meaning (m : FMap K V) (k : K) (v : V) (h : m.Unique) (hk : m.get k = none) :
    FMap.Unique (m ++ [(k, v)]) ∧ FMap.meaning (m ++ [(k, v)]) = ⟨fun x => if x = k then some v else m.get x, m.map (·.1) ++ [k]⟩ := by
  constructor
  · unfold FMap.Unique
    rw [List.map_append, List.nodup_append]
    refine ⟨h, by simp, ?_⟩
    intro a ha b hb
    simp only [List.map_cons, List.map_nil, List.mem_singleton] at hb
    rintro rfl
    exact (get_none_iff m k).mp hk (hb ▸ ha)
  · unfold FMap.meaning
    simp only [List.map_append, List.map_cons, List.map_nil, Spec.Map.mk.injEq, and_true]
    funext x
    rw [get_append]
    by_cases hx : x = k
    · subst hx; simp [hk]
    · rw [if_neg hx, if_neg (fun e => hx e.symm)]
      cases m.get x <;> rfl

theorem mem_of_get (m : FMap K V) (k : K) (h : (m.get k).isSome) : k ∈ m.map (·.1) := by
  by_cases hm : k ∈ m.map (·.1)
  · exact hm
  · rw [(get_none_iff m k).mpr hm] at h; cases h

/-- `insert`: its answer, and the map afterwards. -/
theorem insert_meaning (cap : Nat) (m : FMap K V) (h : m.Unique) (hc : m.length ≤ cap) (k : K) (v : V) :
    (m.insert cap k v).1.Unique ∧ (m.insert cap k v).1.length ≤ cap ∧
    (m.insert cap k v).1.meaning = m.meaning.offer cap k v ∧
    (m.insert cap k v).2 = (if m.meaning.full cap k then .error v else .ok (m.meaning.val k)) := by
  have hr := remove_get m h k
  have hm := remove_meaning m h k
  have hlen := (hr k).2.2.1
  have hnone : (m.remove k).1.get k = none := by rw [(hr k).1, if_pos rfl]
  have hfull : m.meaning.full cap k = ((m.get k).isNone && decide (cap ≤ m.length)) := by
    simp [Spec.Map.full, FMap.meaning]
  have hval : m.meaning.val k = m.get k := rfl
  unfold FMap.insert FMap.push Spec.Map.offer
  simp only
  rw [hfull, hval]
  by_cases hl : (m.remove k).1.length < cap
  · have hno : ((m.get k).isNone && decide (cap ≤ m.length)) = false := by
      cases hg : m.get k with
      | none =>
        rw [hg] at hlen
        simp only [Option.isSome_none, Bool.false_eq_true, if_false] at hlen
        simp only [Option.isNone_none, Bool.true_and, decide_eq_false_iff_not]
        omega
      | some x => rfl
    have hp := push_meaning (m.remove k).1 k v hm.1 hnone
    rw [if_pos hl, hno]
    simp only [Bool.false_eq_true, ↓reduceIte]
    refine ⟨hp.1, by simp; omega, ?_, by rw [(hr k).2.1]⟩
    rw [hp.2, keep_store, ← hm.2]
    rfl
  · have hg : m.get k = none := by
      cases hg : m.get k with
      | none => rfl
      | some x =>
        rw [hg] at hlen
        simp only [Option.isSome_some, if_true] at hlen
        have : m.length ≠ 0 := by
          intro h0
          rw [List.length_eq_zero_iff.mp h0] at hg
          simp [FMap.get] at hg
        omega
    have hsame : (m.remove k).1 = m := by
      rw [remove_eq_filter m h k, List.filter_eq_self]
      intro a ha
      simp only [decide_eq_true_eq]
      intro e
      exact (get_none_iff m k).mp hg (e ▸ List.mem_map_of_mem ha)
    rw [hsame] at hl
    have hyes : ((m.get k).isNone && decide (cap ≤ m.length)) = true := by simp [hg]; omega
    rw [if_neg (by rw [hsame]; exact hl), hyes]
    simp only [↓reduceIte, and_true, hsame]
    exact ⟨h, hc⟩

theorem fill_meaning (cap : Nat) (l : List (K × V)) : (FMap.fill cap l).Unique ∧ (FMap.fill cap l).length ≤ cap ∧
    (FMap.fill cap l).meaning = l.foldl (fun s e => s.offer cap e.1 e.2) Spec.Map.empty := by
  have key : ∀ (l : List (K × V)) (m : FMap K V), m.Unique → m.length ≤ cap →
      (l.foldl (fun m e => (m.insert cap e.1 e.2).1) m).Unique ∧ (l.foldl (fun m e => (m.insert cap e.1 e.2).1) m).length ≤ cap ∧
      (l.foldl (fun m e => (m.insert cap e.1 e.2).1) m).meaning = l.foldl (fun s e => s.offer cap e.1 e.2) m.meaning := by
    intro l
    induction l with
    | nil => exact fun m h1 h2 => ⟨h1, h2, rfl⟩
    | cons e l ih =>
      intro m h1 h2
      have := insert_meaning cap m h1 h2 e.1 e.2
      rw [List.foldl_cons, List.foldl_cons, ← this.2.2.1]
      exact ih _ this.1 this.2.1
  exact key l [] List.nodup_nil (Nat.zero_le _)

theorem iter_meaning (m : FMap K V) (h : m.Unique) : (m.map (·.1)).filterMap (fun x => (m.get x).map (x, ·)) = m := by
  have key : ∀ l : FMap K V, (∀ e ∈ l, m.get e.1 = some e.2) → (l.map (·.1)).filterMap (fun x => (m.get x).map (x, ·)) = l := by
    intro l
    induction l with
    | nil => exact fun _ => rfl
    | cons e l ih =>
      intro hl
      rw [List.map_cons, List.filterMap_cons, hl e List.mem_cons_self]
      simp only [Option.map_some]
      rw [ih fun x hx => hl x (List.mem_cons_of_mem _ hx)]
  apply key
  intro e he
  clear key
  induction m with
  | nil => cases he
  | cons a m ih =>
    unfold FMap.Unique at h
    simp only [List.map_cons, List.nodup_cons] at h
    rw [get_cons]
    rcases List.mem_cons.mp he with rfl | he
    · simp
    · rw [if_neg, ih h.2 he]
      intro hk
      apply h.1
      rw [hk]
      exact List.mem_map_of_mem he

/-- One call. -/
theorem call_meaning (cap : Nat) (m : FMap K V) (h : m.Unique) (hc : m.length ≤ cap) (c : MapCall K V) :
    (m.call cap c).1.Unique ∧ (m.call cap c).1.length ≤ cap ∧ (m.call cap c).1.meaning = (m.meaning.call cap c).1 ∧
    (m.call cap c).2 = (m.meaning.call cap c).2 := by
  have hval : ∀ k, m.meaning.val k = m.get k := fun _ => rfl
  cases c with
  | insert k v =>
    have := insert_meaning cap m h hc k v
    exact ⟨this.1, this.2.1, this.2.2.1, by simp only [FMap.call, Spec.Map.call, this.2.2.2]⟩
  | entryInsert k v =>
    simp only [FMap.call, Spec.Map.call, FMap.entryInsert, find_isSome, hval, FMap.push]
    cases hg : m.get k with
    | some x => simp only [Option.isSome_some, ↓reduceIte, and_true]; exact ⟨h, hc⟩
    | none =>
      have hfull : m.meaning.full cap k = decide (cap ≤ m.length) := by simp [Spec.Map.full, FMap.meaning, hg]
      simp only [Option.isSome_none, Bool.false_eq_true, ↓reduceIte, Spec.Map.offer, hfull, decide_eq_true_eq]
      by_cases hl : m.length < cap
      · have hp := push_meaning m k v h hg
        have hm := remove_meaning m h k
        have hsame : (m.remove k).1 = m := by
          rw [remove_eq_filter m h k, List.filter_eq_self]
          intro a ha
          simp only [decide_eq_true_eq]
          intro e
          exact (get_none_iff m k).mp hg (e ▸ List.mem_map_of_mem ha)
        rw [hsame] at hm
        rw [if_pos hl, if_neg (by omega), if_neg (by omega), hp.2, keep_store, ← hm.2]
        exact ⟨hp.1, by simp; omega, rfl, rfl⟩
      · rw [if_neg hl, if_pos (by omega), if_pos (by omega)]
        exact ⟨h, hc, rfl, rfl⟩
  | entryRemove k =>
    simp only [FMap.call, Spec.Map.call, find_isSome, hval]
    have hm := retain_meaning m h fun x _ => decide (x ≠ k)
    have hl : (m.retain fun x _ => decide (x ≠ k)).length ≤ cap := Nat.le_trans (List.length_filter_le _ _) hc
    cases hg : m.get k with
    | some x => simp only [Option.isSome_some, ↓reduceIte, and_true]; exact ⟨hm.1, hl, hm.2⟩
    | none =>
      simp only [Option.isSome_none, Bool.false_eq_true, ↓reduceIte, and_true]
      refine ⟨h, hc, ?_⟩
      rw [← hm.2]
      have : (m.retain fun x _ => decide (x ≠ k)) = m := by
        unfold FMap.retain
        rw [List.filter_eq_self]
        intro a ha
        simp only [decide_eq_true_eq]
        intro e
        exact (get_none_iff m k).mp hg (e ▸ List.mem_map_of_mem ha)
      rw [this]
  | remove k =>
    have hm := remove_meaning m h k
    have hr := remove_get m h k k
    refine ⟨hm.1, ?_, hm.2, by simp only [FMap.call, Spec.Map.call, hr.2.1]; rfl⟩
    show (m.remove k).1.length ≤ cap
    rw [hr.2.2.1]; omega
  | retain f => exact ⟨(retain_meaning m h f).1, Nat.le_trans (List.length_filter_le _ _) hc, (retain_meaning m h f).2, rfl⟩
  | update k f =>
    have hk := update_keys m k f
    refine ⟨by show FMap.Unique (m.update k f); unfold FMap.Unique; rw [hk]; exact h, ?_, ?_, rfl⟩
    · have := congrArg List.length hk
      simp only [List.length_map] at this
      show (m.update k f).length ≤ cap
      omega
    · show (m.update k f).meaning = _
      unfold FMap.meaning Spec.Map.call
      simp only [Spec.Map.mk.injEq]
      refine ⟨funext fun x => ?_, hk⟩
      rw [update_get]
      by_cases hx : k = x
      · rw [if_pos hx, if_pos hx.symm]
      · rw [if_neg hx, if_neg fun e => hx e.symm]
  | get k => exact ⟨h, hc, rfl, rfl⟩
  | contains k => exact ⟨h, hc, rfl, by simp only [FMap.call, Spec.Map.call, contains_eq, hval]⟩
  | index k => exact ⟨h, hc, rfl, rfl⟩
  | len => exact ⟨h, hc, rfl, by simp [FMap.call, Spec.Map.call, FMap.meaning]⟩
  | isEmpty => exact ⟨h, hc, rfl, by cases m <;> simp [FMap.call, Spec.Map.call, FMap.meaning]⟩
  | iter => exact ⟨h, hc, rfl, by simp only [FMap.call, Spec.Map.call]; rw [show m.meaning.keys = m.map (·.1) from rfl]; exact congrArg _ (iter_meaning m h).symm⟩
  | fill l => exact ⟨(fill_meaning cap l).1, (fill_meaning cap l).2.1, (fill_meaning cap l).2.2, rfl⟩

/-- **C48**: for every capacity and every history of calls to a new map, the answers are those of a finite map of at most `cap`
keys. -/
theorem c48_answers (cap : Nat) (cs : List (MapCall K V)) : FMap.answers cap ([] : FMap K V) cs = Spec.Map.answers cap Spec.Map.empty cs := by
  have key : ∀ (cs : List (MapCall K V)) (m : FMap K V), m.Unique → m.length ≤ cap →
      FMap.answers cap m cs = Spec.Map.answers cap m.meaning cs := by
    intro cs
    induction cs with
    | nil => exact fun _ _ _ => rfl
    | cons c cs ih =>
      intro m h1 h2
      have := call_meaning cap m h1 h2 c
      unfold FMap.answers Spec.Map.answers
      rw [this.2.2.2, ih _ this.1 this.2.1, this.2.2.1]
  exact key cs [] List.nodup_nil (Nat.zero_le _)

/-- The specification keeps at most `cap` keys, each once, and they are the keys with a value: every state a history leads to. -/
def Spec.Map.after (cap : Nat) (cs : List (MapCall K V)) : Spec.Map K V := cs.foldl (fun s c => (s.call cap c).1) Spec.Map.empty

theorem c48_bounded (cap : Nat) (cs : List (MapCall K V)) :
    (Spec.Map.after cap cs).keys.length ≤ cap ∧ (Spec.Map.after cap cs).keys.Nodup ∧
    ∀ k, k ∈ (Spec.Map.after cap cs).keys ↔ (Spec.Map.after cap cs).val k ≠ none := by
  have key : ∀ (cs : List (MapCall K V)) (m : FMap K V), m.Unique → m.length ≤ cap →
      ∃ m' : FMap K V, m'.Unique ∧ m'.length ≤ cap ∧ cs.foldl (fun s c => (s.call cap c).1) m.meaning = m'.meaning := by
    intro cs
    induction cs with
    | nil => exact fun m h1 h2 => ⟨m, h1, h2, rfl⟩
    | cons c cs ih =>
      intro m h1 h2
      have := call_meaning cap m h1 h2 c
      rw [List.foldl_cons, ← this.2.2.1]
      exact ih _ this.1 this.2.1
  obtain ⟨m, h1, h2, h3⟩ := key cs [] List.nodup_nil (Nat.zero_le _)
  have h3 : Spec.Map.after cap cs = m.meaning := h3
  rw [h3]
  refine ⟨by simpa [FMap.meaning] using h2, h1, fun k => ?_⟩
  rw [show m.meaning.val k = m.get k from rfl, Ne, get_none_iff, Classical.not_not]
  rfl

/-- A history of a map of two keys: the third key is refused and nothing is lost, a present key is replaced and becomes the last one,
indexing a missing key panics, and a map made of three pairs keeps the first two. -/
example : Spec.Map.answers 2 Spec.Map.empty ([.insert 1 10, .insert 2 20, .insert 3 30, .insert 1 11, .iter, .remove 2, .index 2, .contains 1,
      .entryInsert 3 30, .len, .entryRemove 1, .fill [(1, 1), (2, 2), (3, 3)], .iter] : List (MapCall Nat Nat)) =
    [.stored (.ok none), .stored (.ok none), .stored (.error 30), .stored (.ok (some 10)), .all [(2, 20), (1, 11)], .value (some 20), .panic,
      .bool true, .entered (some (.ok ())), .count 2, .bool true, .unit, .all [(1, 1), (2, 2)]] := by
  rfl

end Tftp

import Verif.Sessions
/-
C61 byte by byte: the append to the known hosts file stops after any number of bytes (a crash, a full disk: src/key_management.rs:54-58
writes with `write_fmt`, and each `write` can be cut short).
-/
namespace Tftp
open Spec

/-- The file if only the first `m` bytes of the entry are written. src/key_management.rs:49-60. -/
def cutAppend (f e k : Bytes) (m : Nat) : Bytes := f ++ (appendKnownHost [] e k).take m

/-- Specification: the first three `q` bytes of a key, and zeros. -/
def Spec.headOf (k : Bytes) (q : Nat) : Bytes := k.take (3 * q) ++ List.replicate (32 - 3 * q) 0

/-- The crash points of `crashedAppend` are among these. -/
theorem crashedAppend_cut (f e k : Bytes) (n : Nat) : ∃ m, crashedAppend f e k n = cutAppend f e k m := by
  have h : ∀ l : List Bytes, ∀ n, (l.take n).flatten = l.flatten.take ((l.take n).flatten.length) := by
    intro l
    induction l with
    | nil => intro n; simp
    | cons x l ih =>
      intro n
      cases n with
      | zero => simp
      | succ n =>
        have := ih n
        simp only [List.take_succ_cons, List.flatten_cons, List.length_append]
        generalize (l.take n).flatten = y at *
        rw [List.take_append, List.take_of_length_le (l := x) (by omega), show x.length + y.length - x.length = y.length by omega, ← this]
  refine ⟨(((appendWrites e k).take n).flatten).length, ?_⟩
  unfold crashedAppend cutAppend
  rw [h]
  have : (appendWrites e k).flatten = appendKnownHost [] e k := by simp [appendWrites, appendKnownHost]
  rw [this]
  congr 1
  rw [List.length_take]
  rw [List.take_eq_take_iff]
  omega

/-- A last line which is no text is skipped. -/
theorem lookup_tail_invalid (point : Bytes → Bool) (f t e' : Bytes) (hf : f.getLast? ≠ some 13) (ht : (10 : UInt8) ∉ t) (hu : utf8Valid t = false) :
    getKnownHost point (f ++ 10 :: t) e' = getKnownHost point f e' := by
  have hne : t ≠ [] := by rintro rfl; cases hu
  have hraw : rawLines (f ++ 10 :: t) = fullLinesGo [] f ++ restGo [] f :: [t] := by
    unfold rawLines
    rw [rawLinesGo_append, stripCr_rest f hf]
    congr 2
    have : ∀ (acc t : Bytes), (10 : UInt8) ∉ t → rawLinesGo acc t = if t.reverse ++ acc = [] then [] else [(t.reverse ++ acc).reverse] := by
      intro acc t
      induction t generalizing acc with
      | nil => intro _; rfl
      | cons x t ih =>
        intro h
        simp only [List.mem_cons, not_or] at h
        rw [rawLinesGo, if_neg (fun e => h.1 e.symm), ih _ h.2]
        simp
    rw [this [] t ht]
    simp [hne]
  have hraw0 : rawLines f = fullLinesGo [] f ++ (if restGo [] f = [] then [] else [restGo [] f]) := rawLinesGo_eq [] f
  unfold getKnownHost lines
  rw [hraw, hraw0, List.filter_append, List.filter_append, knownGo_append, knownGo_append]
  have hlast : List.filter (fun l => utf8Valid l) [t] = [] := by rw [List.filter_cons_of_neg (by simp [hu])]; rfl
  rw [show restGo [] f :: [t] = [restGo [] f] ++ [t] from rfl, List.filter_append, hlast, List.append_nil]
  by_cases hr : restGo [] f = []
  · rw [hr, if_pos rfl, List.filter_cons_of_pos (by rfl), List.filter_nil, knownGo_nil_line]
  · rw [if_neg hr]

theorem b64encode_take (k : Bytes) (q : Nat) (h : 3 * q ≤ k.length) : (b64encode k).take (4 * q) = b64encode (k.take (3 * q)) := by
  induction q generalizing k with
  | zero => simp [b64encode]
  | succ q ih =>
    match k, h with
    | a :: b :: c :: r, h =>
      have h' : 3 * q ≤ r.length := by simp only [List.length_cons] at h; omega
      rw [show 4 * (q + 1) = 4 * q + 4 by omega, show 3 * (q + 1) = 3 * q + 3 by omega]
      simp only [b64encode, List.take_succ_cons, ih r h']
    | [], h => simp at h
    | [_], h => simp at h; omega
    | [_, _], h => simp at h; omega

/-- The first `j` characters of the text of a key. -/
theorem decode_cut (point : Bytes → Bool) (k : Bytes) (hk : k.length = 32) (j : Nat) (hj : j < 44) :
    decodeVerifyingKey point ((encodeKey k).take j) = if j % 4 = 0 ∧ point (headOf k (j / 4)) = true then some (headOf k (j / 4)) else none := by
  have hl : (encodeKey k).length = 44 := by unfold encodeKey; rw [b64encode_length, hk]
  by_cases h4 : j % 4 = 0
  · have hq : j = 4 * (j / 4) := by omega
    generalize hqq : j / 4 = q at *
    subst hq
    have h3 : 3 * q ≤ k.length := by omega
    unfold decodeVerifyingKey encodeKey
    have hlen : (k.take (3 * q)).length = 3 * q := by simp; omega
    rw [b64encode_take k q h3, keyBuffer_encode _ (by omega), hlen]
    simp only [Option.bind_eq_bind, Option.bind_some]
    have : (k.take (3 * q) ++ List.replicate (88 - 3 * q) 0).take 32 = headOf k q := by
      unfold headOf
      rw [List.take_append, hlen, List.take_of_length_le (by omega), List.take_replicate]
      congr 2
      omega
    rw [this]
    by_cases hp : point (headOf k q) = true
    · rw [if_pos hp, if_pos ⟨by omega, hp⟩]; rfl
    · rw [if_neg hp, if_neg (fun h => hp h.2)]
  · rw [if_neg (fun h => h4 h.1)]
    unfold decodeVerifyingKey
    have : keyBuffer ((encodeKey k).take j) = none := by
      cases hb : keyBuffer ((encodeKey k).take j) with
      | none => rfl
      | some b =>
        obtain ⟨x, hx, -, -⟩ := (keyBuffer_some _ _).mp hb
        have := congrArg List.length hx
        rw [b64encode_length, List.length_take, hl] at this
        omega
    rw [this]
    rfl

theorem cutAppend_cases (f e k : Bytes) (hk : k.length = 32) (m : Nat) :
    (m = 0 ∧ cutAppend f e k m = f) ∨
    (1 ≤ m ∧ m ≤ e.length + 1 ∧ cutAppend f e k m = f ++ 10 :: e.take (m - 1)) ∨
    (∃ j, j ≤ 44 ∧ m = e.length + 2 + j ∧ cutAppend f e k m = f ++ 10 :: (e ++ 32 :: (encodeKey k).take j)) ∨
    (e.length + 47 ≤ m ∧ cutAppend f e k m = appendKnownHost f e k) := by
  have hl : (encodeKey k).length = 44 := by unfold encodeKey; rw [b64encode_length, hk]
  unfold cutAppend appendKnownHost
  simp only [List.nil_append]
  rcases Nat.lt_or_ge m 1 with h | h
  · exact .inl ⟨by omega, by rw [show m = 0 by omega]; simp⟩
  rcases Nat.lt_or_ge (e.length + 1) m with h2 | h2
  · rcases Nat.lt_or_ge (e.length + 46) m with h3 | h3
    · exact .inr (.inr (.inr ⟨by omega, by rw [List.take_of_length_le]; simp [hl]; omega⟩))
    · refine .inr (.inr (.inl ⟨m - (e.length + 2), by omega, by omega, ?_⟩))
      obtain ⟨j, rfl⟩ : ∃ j, m = (e.length + 1 + j) + 1 := ⟨m - (e.length + 2), by omega⟩
      simp only [List.cons_append, List.take_succ_cons, List.append_assoc]
      rw [List.take_append, List.take_of_length_le (by omega), show e.length + 1 + j - e.length = j + 1 by omega, List.take_succ_cons,
        List.take_append, show e.length + 1 + j + 1 - (e.length + 2) = j by omega, show j - (encodeKey k).length = 0 by omega]
      simp
  · refine .inr (.inl ⟨h, h2, ?_⟩)
    obtain ⟨n, rfl⟩ : ∃ n, m = n + 1 := ⟨m - 1, by omega⟩
    simp only [List.cons_append, List.take_succ_cons, List.append_assoc]
    rw [List.take_append, show n - e.length = 0 by omega]
    simp

theorem mem_encodeKey_take (k : Bytes) (j : Nat) (c : UInt8) (h : c ∈ (encodeKey k).take j) : printable c ∧ c ≠ 35 :=
  encodeKey_printable k c (List.mem_of_mem_take h)

/-- **C61** (partial), byte by byte: after any number of bytes of the entry, every other host has the entry it had, an earlier entry for this host stays, and the new
host is absent until the space is written, has its key as soon as the text of the key is complete, and in between - this is what is missing of the full claim -
its lookup fails, or gives the first bytes of the key and zeros. -/
theorem c61_bytes_partial (point : Bytes → Bool) (f e k : Bytes) (m : Nat) (hf : f.getLast? ≠ some 13) (he : HostName e)
    (hk : k.length = 32) (hp : point k = true) :
    (∀ e', e' ≠ e → getKnownHost point (cutAppend f e k m) e' = getKnownHost point f e') ∧
    (getKnownHost point f e ≠ .absent → getKnownHost point (cutAppend f e k m) e = getKnownHost point f e) ∧
    (getKnownHost point f e = .absent → (∃ c ∈ e, printable c) →
      (m ≤ e.length + 1 → getKnownHost point (cutAppend f e k m) e = .absent) ∧
      (∀ j, j < 44 → m = e.length + 2 + j → getKnownHost point (cutAppend f e k m) e =
        if j % 4 = 0 ∧ point (headOf k (j / 4)) = true then .found (headOf k (j / 4)) else .error) ∧
      (e.length + 46 ≤ m → getKnownHost point (cutAppend f e k m) e = .found k)) := by
  have hl : (encodeKey k).length = 44 := by unfold encodeKey; rw [b64encode_length, hk]
  rcases cutAppend_cases f e k hk m with ⟨hm, h⟩ | ⟨h1, h2, h⟩ | ⟨j, hj, hm, h⟩ | ⟨hm, h⟩
  · rw [h]
    exact ⟨fun _ _ => rfl, fun _ => rfl, fun ha _ => ⟨fun _ => ha, fun j _ hm' => by omega, fun _ => by omega⟩⟩
  · have hns : (32 : UInt8) ∉ e.take (m - 1) := fun hc => he.noSpace (List.mem_of_mem_take hc)
    have hnn : (10 : UInt8) ∉ e.take (m - 1) := fun hc => he.noNewline (List.mem_of_mem_take hc)
    have key : ∀ e', getKnownHost point (cutAppend f e k m) e' = getKnownHost point f e' := by
      intro e'
      rw [h]
      by_cases hu : utf8Valid (e.take (m - 1)) = true
      · rw [lookup_tail point f _ e' hf hnn hu, lookup_word point _ e' hns]
        cases getKnownHost point f e' <;> rfl
      · exact lookup_tail_invalid point f _ e' hf hnn (by simpa using hu)
    exact ⟨fun e' _ => key e', fun _ => key e, fun ha _ => ⟨fun _ => by rw [key, ha], fun j _ hm' => by omega, fun _ => by omega⟩⟩
  · have hnn : (10 : UInt8) ∉ e ++ 32 :: (encodeKey k).take j := by
      intro hc
      rcases List.mem_append.mp hc with hc | hc
      · exact he.noNewline hc
      · rcases List.mem_cons.mp hc with hc | hc
        · cases hc
        · have := (mem_encodeKey_take k j 10 hc).1.1
          simp at this
    have hu : utf8Valid (e ++ 32 :: (encodeKey k).take j) = true := by
      rw [utf8Valid_append he.utf8]
      refine utf8Valid_ascii fun c hc => ?_
      rcases List.mem_cons.mp hc with rfl | hc
      · decide
      · have := (mem_encodeKey_take k j c hc).1.2; omega
    have htail : ∀ e', getKnownHost point (cutAppend f e k m) e' = match getKnownHost point f e' with
        | .absent => knownGo point e' [e ++ 32 :: (encodeKey k).take j]
        | x => x := fun e' => by rw [h]; exact lookup_tail point f _ e' hf hnn hu
    refine ⟨fun e' hne => ?_, fun ha => ?_, fun ha hprint => ?_⟩
    · rw [htail, lookup_entry point e e' _ he.noSpace hne]
      cases getKnownHost point f e' <;> rfl
    · rw [htail]
      cases hg : getKnownHost point f e <;> simp_all
    · obtain ⟨c, hc, hcp⟩ := hprint
      have hskip : skipLine (e ++ 32 :: (encodeKey k).take j) = false := by
        refine skipLine_printable _ c (by simp [hc]) hcp ?_
        cases e with
        | nil => cases hc
        | cons y e => exact he.noComment
      have hgo : getKnownHost point (cutAppend f e k m) e = match decodeVerifyingKey point ((encodeKey k).take j) with
          | some k => .found k
          | none => .error := by
        rw [htail, ha]
        simp only
        rw [knownGo, if_neg (by simp [hskip]), splitOnce_append _ _ he.noSpace]
        simp only [if_true]
        cases decodeVerifyingKey point ((encodeKey k).take j) <;> rfl
      refine ⟨fun _ => by omega, fun i hi hm' => ?_, fun hm' => ?_⟩
      · obtain rfl : i = j := by omega
        rw [hgo, decode_cut point k hk i hi]
        split <;> rename_i x hx <;> split at hx <;> simp_all
      · obtain rfl : j = 44 := by omega
        rw [hgo, List.take_of_length_le (by omega), c33_round_trip.2.2.1 point k hk hp]
  · rw [h]
    obtain ⟨h1, h2, h3⟩ := c34_known_hosts point f e k hf he hk hp
    exact ⟨h3, h2, fun ha _ => ⟨fun _ => by omega, fun j _ hm' => by omega, fun _ => h1 ha⟩⟩

/-- **C61**, finding: wherever inside the text of the key the append is cut, the host is lost: every later run, after whatever runs in between, gives up before it
connects, or uses a key which consists of the first bytes of the real one and zeros. It never treats the host as unknown again, so it never learns the key. -/
theorem c61_cut_locks_out (point : Bytes → Bool) (f e k : Bytes) (hf : f.getLast? ≠ some 13) (he : HostName e) (hprint : ∃ c ∈ e, printable c)
    (hk : k.length = 32) (hp : point k = true) (hnew : getKnownHost point f e = .absent) (j : Nat) (hj : j < 44)
    (xs : List Visit) (hxs : ∀ x ∈ xs, Proper point x) (x : Visit) (hx : x.endpoint = e) (hs : x.serverKey = none) :
    configuredKey point (visits point (some (cutAppend f e k (e.length + 2 + j))) xs) x =
      if j % 4 = 0 ∧ point (headOf k (j / 4)) = true then some (some (headOf k (j / 4))) else none := by
  have hlook := ((c61_bytes_partial point f e k (e.length + 2 + j) hf he hk hp).2.2 hnew hprint).2.1 j hj rfl
  have hlast : (cutAppend f e k (e.length + 2 + j)).getLast? ≠ some 13 := by
    have hc : cutAppend f e k (e.length + 2 + j) = f ++ 10 :: (e ++ 32 :: (encodeKey k).take j) := by
      rcases cutAppend_cases f e k hk (e.length + 2 + j) with ⟨hm, _⟩ | ⟨_, h2, _⟩ | ⟨i, _, hm, h⟩ | ⟨hm, _⟩
      · omega
      · omega
      · rw [show j = i by omega, show e.length + 2 + i = e.length + 2 + j by omega]; exact h
      · omega
    rw [hc]
    intro h
    have h' : (32 :: (encodeKey k).take j).getLast? = some 13 := by
      rw [show f ++ 10 :: (e ++ 32 :: (encodeKey k).take j) = (f ++ 10 :: e) ++ 32 :: (encodeKey k).take j by simp, List.getLast?_append] at h
      cases hg : (32 :: (encodeKey k).take j).getLast? with
      | none => simp at hg
      | some y => rw [hg] at h; simpa using h
    rcases List.mem_cons.mp (List.mem_of_getLast? h') with h | h
    · cases h
    · have := (mem_encodeKey_take k j 13 h).1.1
      simp at this
  obtain ⟨f', h1, -, h3⟩ := visits_keep hlast hxs
  have := h3 e (by rw [hlook]; split <;> simp)
  unfold configuredKey
  rw [hs, h1, hx]
  simp only [this, hlook]
  by_cases hc : j % 4 = 0 ∧ point (headOf k (j / 4)) = true
  · simp only [hc, and_self, if_true]
  · simp only [hc, if_false]

/-! ### Any number of clients -/

/-- Specification: `s` contains the writes of all lists, those of each in its order. -/
inductive Spec.Merged : List (List Bytes) → List Bytes → Prop
  | nil (ls : List (List Bytes)) (h : ∀ l ∈ ls, l = []) : Merged ls []
  | next (x : Bytes) (before after : List (List Bytes)) (l s : List Bytes) : Merged (before ++ l :: after) s → Merged (before ++ (x :: l) :: after) (x :: s)

/-- Whatever follows in a new line, an entry stays what it was. -/
theorem lookup_kept (point : Bytes → Bool) (f t e : Bytes) (hf : f.getLast? ≠ some 13) (h : getKnownHost point f e ≠ .absent) :
    getKnownHost point (f ++ 10 :: t) e = getKnownHost point f e := by
  have hraw0 : rawLines f = fullLinesGo [] f ++ (if restGo [] f = [] then [] else [restGo [] f]) := rawLinesGo_eq [] f
  have hraw : rawLines (f ++ 10 :: t) = fullLinesGo [] f ++ restGo [] f :: rawLinesGo [] t := by
    unfold rawLines
    rw [rawLinesGo_append, stripCr_rest f hf]
  unfold getKnownHost lines at *
  rw [hraw0] at h ⊢
  rw [hraw]
  rw [List.filter_append, knownGo_append] at h ⊢
  rw [List.filter_append, knownGo_append]
  by_cases hr : restGo [] f = []
  · rw [hr, if_pos rfl] at h ⊢
    revert h
    cases knownGo point e (List.filter (fun l => utf8Valid l) (fullLinesGo [] f)) with
    | absent => intro h; exact absurd rfl h
    | found k => intro _; rfl
    | error => intro _; rfl
  · rw [if_neg hr] at h ⊢
    revert h
    cases knownGo point e (List.filter (fun l => utf8Valid l) (fullLinesGo [] f)) with
    | found k => intro _; rfl
    | error => intro _; rfl
    | absent =>
      simp only
      rw [show restGo [] f :: rawLinesGo [] t = [restGo [] f] ++ rawLinesGo [] t from rfl, List.filter_append, knownGo_append]
      cases knownGo point e (List.filter (fun l => utf8Valid l) [restGo [] f]) with
      | absent => intro h; exact absurd rfl h
      | found k => intro _; rfl
      | error => intro _; rfl

/-- **C61** (partial): any number of clients append at the same time, each stopped anywhere (`m`: the bytes which reach the file); every entry which was in the file
before stays what it was. Missing: the lookups of hosts without entry, which can change, see `c61_concurrent_appends_mix`. -/
theorem c61_entries_kept_partial (point : Bytes → Bool) (f : Bytes) (hf : f.getLast? ≠ some 13) (clients : List (Bytes × Bytes)) (s : List Bytes)
    (hs : Merged (clients.map fun c => appendWrites c.1 c.2) s) (m : Nat) (e : Bytes) (h : getKnownHost point f e ≠ .absent) :
    getKnownHost point (f ++ s.flatten.take m) e = getKnownHost point f e := by
  have hhead : s.flatten = [] ∨ ∃ t, s.flatten = 10 :: t := by
    generalize hl : (clients.map fun c => appendWrites c.1 c.2) = ls at hs
    cases hs with
    | nil => exact .inl rfl
    | next x before after l s' hs' =>
      have hx : x :: l ∈ clients.map fun c => appendWrites c.1 c.2 := by rw [hl]; simp
      obtain ⟨c, -, hc⟩ := List.mem_map.mp hx
      simp only [appendWrites, List.cons.injEq] at hc
      rw [← hc.1]
      exact .inr ⟨_, rfl⟩
  rcases hhead with h0 | ⟨t, ht⟩
  · rw [h0]; simp
  · rw [ht]
    cases m with
    | zero => simp
    | succ m => rw [List.take_succ_cons]; exact lookup_kept point f _ e hf h

/-- **C61**, finding: two clients which record the keys of the hosts `a` and `b` at the same time can make a third one unreachable, the host whose name is `a`
followed by `b`: from then on every run for it gives up before it connects. -/
theorem c61_third_host_blocked (point : Bytes → Bool) (f a b ka kb : Bytes) (hf : f.getLast? ≠ some 13) (ha : HostName a) (hb : HostName b)
    (hprint : ∃ c ∈ a, printable c) (hnew : getKnownHost point f (a ++ b) = .absent) :
    ∃ s, Merged [appendWrites a ka, appendWrites b kb] s ∧ getKnownHost point (f ++ s.flatten) (a ++ b) = .error := by
  refine ⟨[[10], [10], a, b, [32], [32], encodeKey ka, encodeKey kb, [10], [10]], ?_, ?_⟩
  · exact .next _ [] _ _ _ (.next _ [_] [] _ _ (.next _ [] _ _ _ (.next _ [_] [] _ _ (.next _ [] _ _ _ (.next _ [_] [] _ _ (.next _ [] _ _ _ (.next _ [_] [] _ _
      (.next _ [] _ _ _ (.next _ [_] [] _ _ (.nil _ (by simp)))))))))))
  · have hk : ∀ c ∈ encodeKey ka ++ encodeKey kb, printable c ∧ c ≠ 35 := by
      intro c hc
      rcases List.mem_append.mp hc with hc | hc
      · exact encodeKey_printable ka c hc
      · exact encodeKey_printable kb c hc
    have hsp : (32 : UInt8) ∉ a ++ b := by
      intro h
      rcases List.mem_append.mp h with h | h
      · exact ha.noSpace h
      · exact hb.noSpace h
    have hmem : ∀ c ∈ a ++ b ++ 32 :: (32 :: (encodeKey ka ++ encodeKey kb)), c ≠ 10 := by
      rintro c hc rfl
      simp only [List.mem_append, List.mem_cons] at hc
      rcases hc with (h | h) | h | h | h
      · exact ha.noNewline h
      · exact hb.noNewline h
      · cases h
      · cases h
      · have := (hk 10 (List.mem_append.mpr h)).1.1
        simp at this
    have hu : utf8Valid (a ++ b ++ 32 :: (32 :: (encodeKey ka ++ encodeKey kb))) = true := by
      rw [List.append_assoc, utf8Valid_append ha.utf8, utf8Valid_append hb.utf8]
      refine utf8Valid_ascii fun c hc => ?_
      rcases List.mem_cons.mp hc with rfl | hc
      · decide
      · rcases List.mem_cons.mp hc with rfl | hc
        · decide
        · have := (hk c hc).1.2; omega
    have hdec : decodeVerifyingKey point (32 :: (encodeKey ka ++ encodeKey kb)) = none := by
      unfold decodeVerifyingKey
      cases hb : keyBuffer (32 :: (encodeKey ka ++ encodeKey kb)) with
      | none => rfl
      | some y =>
        obtain ⟨x, hx, -, -⟩ := (keyBuffer_some _ _).mp hb
        have := (encodeKey_printable x 32 (by unfold encodeKey; rw [← hx]; simp)).1.1
        simp at this
    have hline : knownGo point (a ++ b) [a ++ b ++ 32 :: (32 :: (encodeKey ka ++ encodeKey kb))] = .error := by
      have hskip : skipLine (a ++ b ++ 32 :: (32 :: (encodeKey ka ++ encodeKey kb))) = false := by
        obtain ⟨c, hc, hcp⟩ := hprint
        refine skipLine_printable _ c (by simp [hc]) hcp ?_
        cases a with
        | nil => cases hc
        | cons y a => exact ha.noComment
      rw [knownGo, if_neg (by rw [hskip]; decide), splitOnce_append _ _ hsp]
      simp only [if_true, hdec]
    -- the file up to the end of the mixed line
    have h1 : getKnownHost point ((f ++ [10]) ++ 10 :: (a ++ b ++ 32 :: (32 :: (encodeKey ka ++ encodeKey kb)))) (a ++ b) = .error := by
      have hempty : getKnownHost point (f ++ [10]) (a ++ b) = .absent := by
        rw [lookup_tail point f [] _ hf (by simp) rfl, hnew]
        exact lookup_word point [] _ (by simp)
      rw [lookup_tail point _ _ _ (by simp) (fun h => hmem _ h rfl) hu, hempty]
      exact hline
    have h2 := lookup_kept point ((f ++ [10]) ++ 10 :: (a ++ b ++ 32 :: (32 :: (encodeKey ka ++ encodeKey kb)))) [10] (a ++ b) ?_ (by rw [h1]; simp)
    · rw [h1] at h2
      rw [← h2]
      congr 1
      simp
    · intro h
      have h' : (32 :: (encodeKey ka ++ encodeKey kb)).getLast? = some 13 := by
        rw [show (f ++ [10]) ++ 10 :: (a ++ b ++ 32 :: (32 :: (encodeKey ka ++ encodeKey kb))) = (f ++ 10 :: 10 :: (a ++ b ++ [32])) ++ 32 :: (encodeKey ka ++ encodeKey kb) by simp,
          List.getLast?_append] at h
        cases hg : (32 :: (encodeKey ka ++ encodeKey kb)).getLast? with
        | none => simp at hg
        | some y => rw [hg] at h; simpa using h
      rcases List.mem_cons.mp (List.mem_of_getLast? h') with h | h
      · cases h
      · have := (hk 13 h).1.1
        simp at this

/-- Two clients, the writes one by one in turn. -/
example : Merged ([(ascii "a", List.replicate 32 1), (ascii "b", List.replicate 32 2)].map fun c => appendWrites c.1 c.2)
    [[10], [10], ascii "a", ascii "b", [32], [32], encodeKey (List.replicate 32 1), encodeKey (List.replicate 32 2), [10], [10]] := by
  simp only [List.map_cons, List.map_nil, appendWrites]
  exact .next _ [] _ _ _ (.next _ [_] [] _ _ (.next _ [] _ _ _ (.next _ [_] [] _ _ (.next _ [] _ _ _ (.next _ [_] [] _ _ (.next _ [] _ _ _ (.next _ [_] [] _ _
    (.next _ [] _ _ _ (.next _ [_] [] _ _ (.nil _ (by simp)))))))))))

/-- The host `h` with the key of thirty-two ones, cut after eight characters: the key is six ones and zeros; after nine: an error; after one byte of the entry: unknown. -/
example :
    let f' := fun m => visits (fun _ => true) (some (cutAppend [] (ascii "h") (List.replicate 32 1) m)) []
    configuredKey (fun _ => true) (f' 11) ⟨ascii "h", none, none⟩ = some (some (List.replicate 6 1 ++ List.replicate 26 0)) ∧
    configuredKey (fun _ => true) (f' 12) ⟨ascii "h", none, none⟩ = none ∧
    configuredKey (fun _ => true) (f' 1) ⟨ascii "h", none, none⟩ = some none := by
  intro f'
  have hh : HostName (ascii "h") := hostName_of (by decide)
  have hpr : ∃ c ∈ ascii "h", printable c := ⟨104, by decide, by unfold printable; decide⟩
  refine ⟨?_, ?_, ?_⟩
  · have := c61_cut_locks_out (fun _ => true) [] (ascii "h") (List.replicate 32 1) (by simp) hh hpr rfl rfl rfl 8 (by decide) [] (by simp) ⟨ascii "h", none, none⟩ rfl rfl
    exact this
  · have := c61_cut_locks_out (fun _ => true) [] (ascii "h") (List.replicate 32 1) (by simp) hh hpr rfl rfl rfl 9 (by decide) [] (by simp) ⟨ascii "h", none, none⟩ rfl rfl
    exact this
  · decide +kernel

end Tftp

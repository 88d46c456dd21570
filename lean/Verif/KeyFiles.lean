import Verif.Keys
import Verif.Trim
/-
Key files: src/key_management.rs:13-60, std-binary/src/encryption_io.rs:82-106 (C34, C35).
Simplification: the file is its contents (no I/O errors while reading; the code skips over a line with a read error).
-/
namespace Tftp

/-- `pop` a trailing carriage return. -/
def stripCr (l : Bytes) : Bytes := if l.getLast? = some 13 then l.dropLast else l

/-- `BufRead::lines` as raw lines: split at `\n`, a `\r` before the `\n` is removed, a last line without `\n` is
kept as it is and an empty one is not there. `acc` is the reversed current line. -/
def rawLinesGo (acc : Bytes) : Bytes → List Bytes
  | [] => if acc = [] then [] else [acc.reverse]
  | c :: r => if c = 10 then stripCr acc.reverse :: rawLinesGo [] r else rawLinesGo (c :: acc) r

/-- All lines of a file. -/
def rawLines (f : Bytes) : List Bytes := rawLinesGo [] f

/-- The lines the loops get to see: `let Ok(line) = line else { continue }` drops lines which are not UTF-8
(src/key_management.rs:16-18, 33-35). -/
def lines (f : Bytes) : List Bytes := (rawLines f).filter fun l => utf8Valid l

/-- `line.starts_with('#') || line.trim().is_empty()` (src/key_management.rs:19, 36). -/
def skipLine (l : Bytes) : Bool := l.head? == some 35 || (trim l).isEmpty

/-- src/key_management.rs:13-26 `read_authorized_keys`, on lines. `none`: error. -/
def authorizedGo (point : Bytes → Bool) : List Bytes → Option (List Bytes)
  | [] => some []
  | l :: r =>
    if skipLine l then authorizedGo point r
    else do
      let k ← decodeVerifyingKey point l
      let ks ← authorizedGo point r
      pure (k :: ks)

/-- src/key_management.rs:13-26 `read_authorized_keys` (std build, unbounded vector). -/
def readAuthorizedKeys (point : Bytes → Bool) (f : Bytes) : Option (List Bytes) := authorizedGo point (lines f)

/-- `line.split_once(' ')`. -/
def splitOnce : Bytes → Option (Bytes × Bytes)
  | [] => none
  | c :: r => if c = 32 then some ([], r) else (splitOnce r).map fun (a, b) => (c :: a, b)

/-- The result of a lookup: `Ok(None)`, `Ok(Some(key))` or `Err`. -/
inductive Lookup | absent | found (k : Bytes) | error
deriving DecidableEq

/-- src/key_management.rs:28-47 `get_from_known_hosts`, on lines. -/
def knownGo (point : Bytes → Bool) (e : Bytes) : List Bytes → Lookup
  | [] => .absent
  | l :: r =>
    if skipLine l then knownGo point e r
    else match splitOnce l with
      | some (e', k) => if e' = e then
          match decodeVerifyingKey point k with
          | some k => .found k
          | none => .error
        else knownGo point e r
      | none => knownGo point e r

/-- src/key_management.rs:28-47 `get_from_known_hosts`. -/
def getKnownHost (point : Bytes → Bool) (f e : Bytes) : Lookup := knownGo point e (lines f)

/-- src/key_management.rs:49-60 `append_to_known_hosts`: the file afterwards. -/
def appendKnownHost (f e k : Bytes) : Bytes := f ++ (10 :: e ++ 32 :: encodeKey k ++ [10])

/-- std-binary/src/encryption_io.rs:82-106 `handle_hosts_file` (the file can be opened). -/
def handleHostsFile (point : Bytes → Bool) (f e k : Bytes) : Bytes :=
  match getKnownHost point f e with
  | .found _ => f
  | _ => appendKnownHost f e k

/-! ### Lemmas about lines -/

theorem rawLinesGo_line (acc l r : Bytes) (h : (10 : UInt8) ∉ l) :
    rawLinesGo acc (l ++ 10 :: r) = stripCr (acc.reverse ++ l) :: rawLinesGo [] r := by
  induction l generalizing acc with
  | nil => simp [rawLinesGo]
  | cons c l ih =>
    simp only [List.mem_cons, not_or] at h
    simp only [List.cons_append, rawLinesGo, if_neg (Ne.symm h.1)]
    rw [ih _ h.2]
    simp

/-- The complete lines of a file. -/
def fullLinesGo (acc : Bytes) : Bytes → List Bytes
  | [] => []
  | c :: r => if c = 10 then stripCr acc.reverse :: fullLinesGo [] r else fullLinesGo (c :: acc) r

/-- What follows the last line feed. -/
def restGo (acc : Bytes) : Bytes → Bytes
  | [] => acc.reverse
  | c :: r => if c = 10 then restGo [] r else restGo (c :: acc) r

theorem rawLinesGo_eq (acc f : Bytes) :
    rawLinesGo acc f = fullLinesGo acc f ++ (if restGo acc f = [] then [] else [restGo acc f]) := by
  induction f generalizing acc with
  | nil => simp only [rawLinesGo, fullLinesGo, restGo, List.nil_append, List.reverse_eq_nil_iff]
  | cons c r ih =>
    simp only [rawLinesGo, fullLinesGo, restGo]
    split
    · rw [ih]; simp
    · rw [ih]

theorem rawLinesGo_append (acc f t : Bytes) :
    rawLinesGo acc (f ++ 10 :: t) = fullLinesGo acc f ++ stripCr (restGo acc f) :: rawLinesGo [] t := by
  induction f generalizing acc with
  | nil => simp [rawLinesGo, fullLinesGo, restGo]
  | cons c r ih =>
    simp only [List.cons_append, rawLinesGo, fullLinesGo, restGo]
    split
    · rw [ih]; simp
    · rw [ih]

theorem restGo_last (acc f : Bytes) (h : (restGo acc f).getLast? = some 13) :
    (acc.reverse ++ f).getLast? = some 13 := by
  induction f generalizing acc with
  | nil => simpa [restGo] using h
  | cons c r ih =>
    simp only [restGo] at h
    split at h
    · have := ih [] h
      simp only [List.reverse_nil, List.nil_append] at this
      have hr : r ≠ [] := by rintro rfl; simp at this
      rw [List.getLast?_append, List.getLast?_cons_of_ne_nil hr, this]
      rfl
    · have := ih (c :: acc) h
      simpa using this

theorem stripCr_rest (f : Bytes) (h : f.getLast? ≠ some 13) : stripCr (restGo [] f) = restGo [] f := by
  unfold stripCr
  rw [if_neg]
  intro hc
  exact h (by simpa using restGo_last [] f hc)

/-! ### Lemmas about skipped lines -/

/-- A printable ASCII character other than the space. -/
def Spec.printable (c : UInt8) : Prop := 33 ≤ c.toNat ∧ c.toNat < 127

theorem spaceLike_not_printable (c : UInt8)
    (h : (0x80 ≤ c ∧ c ≤ 0x8A) ∨ c = 0xA8 ∨ c = 0xA9 ∨ c = 0xAF) : ¬ Spec.printable c := by
  rintro ⟨h1, h2⟩
  rcases h with ⟨h, -⟩ | rfl | rfl | rfl
  · rw [UInt8.le_iff_toNat_le] at h
    simp at h
    omega
  all_goals simp at h2

theorem wsFront_keeps {b r : Bytes} (h : wsFront b = some r) (c : UInt8) (hc : c ∈ b)
    (hp : Spec.printable c) : c ∈ r := by
  have key : ∀ (d : UInt8) (t : Bytes), c ∈ d :: t → ¬ Spec.printable d → c ∈ t := by
    intro d t hm hd
    rcases List.mem_cons.mp hm with rfl | hm
    · exact absurd hp hd
    · exact hm
  unfold wsFront at h
  split at h
  all_goals first | (split at h) | skip
  all_goals first
    | (rename_i hq
       simp only [Option.some.injEq] at h
       subst h
       exact key _ _ (key _ _ (key _ _ hc (by simp [Spec.printable])) (by simp [Spec.printable]))
         (spaceLike_not_printable _ hq))
    | (simp only [Option.some.injEq] at h
       subst h
       first
       | exact key _ _ hc (by simp [Spec.printable])
       | exact key _ _ (key _ _ hc (by simp [Spec.printable])) (by simp [Spec.printable])
       | exact key _ _ (key _ _ (key _ _ hc (by simp [Spec.printable])) (by simp [Spec.printable]))
          (by simp [Spec.printable]))
    | cases h

theorem wsBack_keeps {b r : Bytes} (h : wsBack b = some r) (c : UInt8) (hc : c ∈ b)
    (hp : Spec.printable c) : c ∈ r := by
  have key : ∀ (d : UInt8) (t : Bytes), c ∈ d :: t → ¬ Spec.printable d → c ∈ t := by
    intro d t hm hd
    rcases List.mem_cons.mp hm with rfl | hm
    · exact absurd hp hd
    · exact hm
  unfold wsBack at h
  split at h
  all_goals first | (split at h) | skip
  all_goals first
    | (rename_i hq
       simp only [Option.some.injEq] at h
       subst h
       exact key _ _ (key _ _ (key _ _ hc (spaceLike_not_printable _ hq)) (by simp [Spec.printable]))
         (by simp [Spec.printable]))
    | (simp only [Option.some.injEq] at h
       subst h
       first
       | exact key _ _ hc (by simp [Spec.printable])
       | exact key _ _ (key _ _ hc (by simp [Spec.printable])) (by simp [Spec.printable])
       | exact key _ _ (key _ _ (key _ _ hc (by simp [Spec.printable])) (by simp [Spec.printable]))
          (by simp [Spec.printable]))
    | cases h

theorem trimStart_keeps (b : Bytes) (c : UInt8) (hc : c ∈ b) (hp : Spec.printable c) : c ∈ trimStart b := by
  induction b using trimStart.induct with
  | case1 b r h ih => rw [trimStart]; split <;> simp_all; exact ih (wsFront_keeps ‹_› c hc hp)
  | case2 b h => rw [trimStart]; split <;> simp_all

theorem trimBack_keeps (b : Bytes) (c : UInt8) (hc : c ∈ b) (hp : Spec.printable c) : c ∈ trimBack b := by
  induction b using trimBack.induct with
  | case1 b r h ih => rw [trimBack]; split <;> simp_all; exact ih (wsBack_keeps ‹_› c hc hp)
  | case2 b h => rw [trimBack]; split <;> simp_all

theorem trim_keeps (b : Bytes) (c : UInt8) (hc : c ∈ b) (hp : Spec.printable c) : c ∈ trim b := by
  unfold trim
  rw [List.mem_reverse]
  exact trimBack_keeps _ c (List.mem_reverse.mpr (trimStart_keeps b c hc hp)) hp

theorem skipLine_printable (l : Bytes) (c : UInt8) (hc : c ∈ l) (hp : Spec.printable c) (h : l.head? ≠ some 35) :
    skipLine l = false := by
  unfold skipLine
  have := trim_keeps l c hc hp
  cases ht : trim l with
  | nil => rw [ht] at this; cases this
  | cons => simp [h]

/-- ASCII white space lines are blank. -/
theorem skipLine_blank (l : Bytes) (h : ∀ c ∈ l, c = 32 ∨ c = 9) : skipLine l = true := by
  have : trimStart l = [] := by
    induction l with
    | nil => rw [trimStart]; rfl
    | cons c r ih =>
      have hr := ih (fun c hc => h c (List.mem_cons_of_mem _ hc))
      rw [trimStart]
      have hw : wsFront (c :: r) = some r := by
        rcases h c (by simp) with rfl | rfl <;> rfl
      split
      · rename_i r' hr'
        rw [hw] at hr'
        cases hr'
        exact hr
      · rename_i hn
        rw [hw] at hn
        cases hn
  unfold skipLine trim
  rw [this]
  have : trimBack [] = [] := by rw [trimBack]; rfl
  simp [this]

theorem b64encode_chars (x : Bytes) : ∀ c ∈ b64encode x, c = 61 ∨ (b64val c).isSome := by
  have hs : ∀ n < 64, (b64val (b64sym n)).isSome = true := by
    intro n hn; rw [b64val_sym n hn]; rfl
  induction x using b64encode.induct with
  | case1 => simp [b64encode]
  | case2 a =>
    have ha := a.toNat_lt
    simp only [b64encode, List.mem_cons, List.not_mem_nil, or_false, forall_eq_or_imp, forall_eq, true_or, and_true]
    exact ⟨.inr (hs _ (by omega)), .inr (hs _ (by omega))⟩
  | case3 a b =>
    have ha := a.toNat_lt
    have hb := b.toNat_lt
    simp only [b64encode, List.mem_cons, List.not_mem_nil, or_false, forall_eq_or_imp, forall_eq, true_or, and_true]
    exact ⟨.inr (hs _ (by omega)), .inr (hs _ (by omega)), .inr (hs _ (by omega))⟩
  | case4 a b c r ih =>
    have ha := a.toNat_lt
    have hb := b.toNat_lt
    have hc := c.toNat_lt
    simp only [b64encode, List.mem_cons, forall_eq_or_imp]
    exact ⟨.inr (hs _ (by omega)), .inr (hs _ (by omega)), .inr (hs _ (by omega)), .inr (hs _ (by omega)), ih⟩

theorem encodeKey_printable (k : Bytes) : ∀ c ∈ encodeKey k, Spec.printable c ∧ c ≠ 35 := by
  have key : ∀ n < 64, 36 ≤ (b64sym n).toNat ∧ (b64sym n).toNat < 127 := by decide
  intro c hc
  rcases b64encode_chars k c hc with rfl | h
  · exact ⟨by simp [Spec.printable], by decide⟩
  · obtain ⟨n, hn⟩ := Option.isSome_iff_exists.mp h
    obtain ⟨hl, rfl⟩ := b64sym_val c n hn
    have := key n hl
    refine ⟨⟨by omega, this.2⟩, ?_⟩
    intro h
    rw [h] at this
    simp at this

theorem encodeKey_ne_nil (k : Bytes) (h : k ≠ []) : encodeKey k ≠ [] := by
  intro hc
  have := b64encode_length k
  unfold encodeKey at hc
  rw [hc] at this
  cases k with
  | nil => exact h rfl
  | cons a r => simp at this; omega

theorem utf8Valid_encodeKey (k : Bytes) : utf8Valid (encodeKey k) = true :=
  utf8Valid_ascii fun x hx => by have := (encodeKey_printable k x hx).1.2; omega

/-! ### Known hosts -/

theorem knownGo_append (point : Bytes → Bool) (e : Bytes) (a b : List Bytes) :
    knownGo point e (a ++ b) = match knownGo point e a with
      | .absent => knownGo point e b
      | x => x := by
  induction a with
  | nil => rfl
  | cons l a ih =>
    simp only [List.cons_append, knownGo]
    split
    · exact ih
    · split
      · split
        · split <;> rfl
        · exact ih
      · exact ih

theorem splitOnce_append (a b : Bytes) (h : (32 : UInt8) ∉ a) : splitOnce (a ++ 32 :: b) = some (a, b) := by
  induction a with
  | nil => simp [splitOnce]
  | cons c r ih =>
    simp only [List.mem_cons, not_or] at h
    simp [splitOnce, ih h.2, Ne.symm h.1]

theorem knownGo_nil_line (point : Bytes → Bool) (e : Bytes) (b : List Bytes) :
    knownGo point e ([] :: b) = knownGo point e b := by
  rw [knownGo, if_pos (skipLine_blank [] (by simp))]

/-- What a host name in the file has to look like to be found again: one word, no comment. -/
structure Spec.HostName (e : Bytes) : Prop where
  utf8 : utf8Valid e = true
  noSpace : (32 : UInt8) ∉ e
  noNewline : (10 : UInt8) ∉ e
  noComment : e.head? ≠ some 35

theorem lookup_append (point : Bytes → Bool) (f e e' k : Bytes) (hf : f.getLast? ≠ some 13) (he : Spec.HostName e)
    (hk : k.length = 32) (hp : point k = true) :
    getKnownHost point (appendKnownHost f e k) e' = match getKnownHost point f e' with
      | .absent => if e = e' then .found k else .absent
      | x => x := by
  have hkn : k ≠ [] := by rintro rfl; simp at hk
  obtain ⟨c0, t0, hkey⟩ := List.exists_cons_of_ne_nil (encodeKey_ne_nil k hkn)
  have hraw : rawLines (appendKnownHost f e k) =
      fullLinesGo [] f ++ restGo [] f :: [e ++ 32 :: encodeKey k] := by
    unfold rawLines appendKnownHost
    have h1 : f ++ (10 :: e ++ 32 :: encodeKey k ++ [10]) = f ++ 10 :: ((e ++ 32 :: encodeKey k) ++ 10 :: []) := by
      simp
    rw [h1, rawLinesGo_append, stripCr_rest f hf, rawLinesGo_line]
    · have hstrip : stripCr (e ++ 32 :: encodeKey k) = e ++ 32 :: encodeKey k := by
        unfold stripCr
        rw [if_neg]
        intro hc
        have hm : (13 : UInt8) ∈ encodeKey k := by
          have hne := encodeKey_ne_nil k hkn
          rw [List.getLast?_append, List.getLast?_cons_of_ne_nil hne] at hc
          have : (encodeKey k).getLast? = some 13 := by
            rw [List.getLast?_eq_some_getLast hne] at hc ⊢
            simpa using hc
          exact List.mem_of_getLast? this
        have := (encodeKey_printable k 13 hm).1.1
        simp at this
      rw [List.reverse_nil, List.nil_append, hstrip]
      simp [rawLinesGo]
    · intro hc
      rcases List.mem_append.mp hc with hc | hc
      · exact he.noNewline hc
      · rcases List.mem_cons.mp hc with hc | hc
        · cases hc
        · have := (encodeKey_printable k 10 hc).1.1
          simp at this
  have hraw0 : rawLines f = fullLinesGo [] f ++ (if restGo [] f = [] then [] else [restGo [] f]) := rawLinesGo_eq [] f
  have hline : utf8Valid (e ++ 32 :: encodeKey k) = true := by
    rw [utf8Valid_append he.utf8]
    have := utf8Valid_encodeKey k
    exact this
  have hlines : knownGo point e' (lines (appendKnownHost f e k)) =
      knownGo point e' (lines f ++ [e ++ 32 :: encodeKey k]) := by
    unfold lines
    rw [hraw, hraw0]
    by_cases hr : restGo [] f = []
    · rw [hr, if_pos rfl, List.append_nil, List.filter_append, List.filter_cons_of_pos (by rfl),
        List.filter_cons_of_pos hline, List.filter_nil, knownGo_append, knownGo_append]
      rw [knownGo_nil_line]
    · rw [if_neg hr]
      rw [show restGo [] f :: [e ++ 32 :: encodeKey k] = [restGo [] f] ++ [e ++ 32 :: encodeKey k] from rfl,
        ← List.append_assoc, List.filter_append, List.filter_cons_of_pos (l := []) hline, List.filter_nil]
  unfold getKnownHost
  rw [hlines, knownGo_append]
  have hskip : skipLine (e ++ 32 :: encodeKey k) = false := by
    refine skipLine_printable _ c0 (by simp [hkey]) ?_ ?_
    · exact (encodeKey_printable k c0 (by simp [hkey])).1
    · cases e with
      | nil => simp
      | cons x e => exact he.noComment
  have hlast : knownGo point e' [e ++ 32 :: encodeKey k] = if e = e' then .found k else .absent := by
    rw [knownGo, if_neg (by simp [hskip]), splitOnce_append _ _ he.noSpace]
    simp only [c33_round_trip.2.2.1 point k hk hp]
    rfl
  rw [hlast]

/-- **C34**: after the key of a host was appended to the known hosts file, looking up that host gives the stored key
if it was not listed before, an earlier entry still wins, and the lookups of all other hosts are unchanged. -/
theorem c34_known_hosts (point : Bytes → Bool) (f e k : Bytes) (hf : f.getLast? ≠ some 13) (he : Spec.HostName e)
    (hk : k.length = 32) (hp : point k = true) :
    (getKnownHost point f e = .absent → getKnownHost point (appendKnownHost f e k) e = .found k) ∧
    (getKnownHost point f e ≠ .absent → getKnownHost point (appendKnownHost f e k) e = getKnownHost point f e) ∧
    (∀ e', e' ≠ e → getKnownHost point (appendKnownHost f e k) e' = getKnownHost point f e') := by
  refine ⟨fun h => ?_, fun h => ?_, fun e' h => ?_⟩
  · rw [lookup_append point f e e k hf he hk hp, h]; simp
  · rw [lookup_append point f e e k hf he hk hp]
    cases hg : getKnownHost point f e <;> simp_all
  · rw [lookup_append point f e e' k hf he hk hp]
    cases hg : getKnownHost point f e' <;> simp_all
    intro hc
    exact absurd hc.symm h

/-- **C34**, trust on first use: recording the key of a finished transfer keeps a key which is already known, stores the
key otherwise, and later transfers can not replace it. -/
theorem c34_trust_on_first_use (point : Bytes → Bool) (f e k k' : Bytes) (hf : f.getLast? ≠ some 13)
    (he : Spec.HostName e) (hk : k.length = 32) (hp : point k = true) :
    (∀ k0, getKnownHost point f e = .found k0 → handleHostsFile point f e k = f) ∧
    (getKnownHost point f e = .absent →
      getKnownHost point (handleHostsFile point f e k) e = .found k ∧
      handleHostsFile point (handleHostsFile point f e k) e k' = handleHostsFile point f e k) := by
  refine ⟨fun k0 h => by unfold handleHostsFile; rw [h], fun h => ?_⟩
  have h1 : handleHostsFile point f e k = appendKnownHost f e k := by unfold handleHostsFile; rw [h]
  have h2 := (c34_known_hosts point f e k hf he hk hp).1 h
  rw [h1]
  refine ⟨h2, ?_⟩
  unfold handleHostsFile
  rw [h2]

/-- Finding: an entry whose key can't be read hides every later entry of that host, so each run appends the key again
without effect. -/
theorem c34_broken_entry_hides_later_ones (point : Bytes → Bool) (f e k : Bytes) (hf : f.getLast? ≠ some 13)
    (he : Spec.HostName e) (hk : k.length = 32) (hp : point k = true) (h : getKnownHost point f e = .error) :
    handleHostsFile point f e k = appendKnownHost f e k ∧
    getKnownHost point (handleHostsFile point f e k) e = .error := by
  have h1 : handleHostsFile point f e k = appendKnownHost f e k := by unfold handleHostsFile; rw [h]
  rw [h1]
  refine ⟨rfl, ?_⟩
  rw [(c34_known_hosts point f e k hf he hk hp).2.1 (by rw [h]; simp), h]

/-! ### Authorized keys -/

/-- A line of an authorized keys file. -/
inductive Spec.KeyLine
  | key (k : Bytes)
  | comment (text : Bytes)
  | blank (ws : Bytes)

/-- The text of a line. -/
def Spec.KeyLine.text : Spec.KeyLine → Bytes
  | .key k => b64encode k
  | .comment t => 35 :: t
  | .blank w => w

/-- The key on a line, if any. -/
def Spec.KeyLine.key? : Spec.KeyLine → Option Bytes
  | .key k => some k
  | _ => none

/-- Keys are 32 byte points, comments are text on one line, blank lines consist of spaces and tabs. -/
def Spec.KeyLine.ok (point : Bytes → Bool) : Spec.KeyLine → Prop
  | .key k => k.length = 32 ∧ point k = true
  | .comment t => utf8Valid t = true ∧ (10 : UInt8) ∉ t
  | .blank w => ∀ c ∈ w, c = 32 ∨ c = 9

theorem authorizedGo_skip (point : Bytes → Bool) (l : Bytes) (r : List Bytes) (h : skipLine l = true) :
    authorizedGo point (l :: r) = authorizedGo point r := by rw [authorizedGo, if_pos h]

/-- **C35**, first half: the keys of a file made of key lines, comments and blank lines are returned in order. -/
theorem c35_keys_in_order (point : Bytes → Bool) (ls : List Spec.KeyLine) (h : ∀ l ∈ ls, l.ok point) :
    readAuthorizedKeys point (ls.flatMap fun l => l.text ++ [10]) = some (ls.filterMap Spec.KeyLine.key?) := by
  unfold readAuthorizedKeys
  induction ls with
  | nil => rfl
  | cons l ls ih =>
    have ih := ih fun l hl => h l (List.mem_cons_of_mem _ hl)
    have hl := h l (by simp)
    have hnl : (10 : UInt8) ∉ l.text := by
      cases l with
      | key k =>
        intro hc
        have := (encodeKey_printable k 10 hc).1.1
        simp at this
      | comment t => simpa [Spec.KeyLine.text] using hl.2
      | blank w =>
        intro hc
        rcases hl 10 hc with h | h <;> cases h
    have hraw : rawLines ((l :: ls).flatMap fun l => l.text ++ [10]) =
        stripCr l.text :: rawLines (ls.flatMap fun l => l.text ++ [10]) := by
      unfold rawLines
      rw [List.flatMap_cons, List.append_assoc]
      exact rawLinesGo_line [] _ _ hnl
    unfold lines at ih ⊢
    rw [hraw]
    cases l with
    | key k =>
      have hkn : k ≠ [] := by rintro rfl; simp [Spec.KeyLine.ok] at hl
      have hs : stripCr (Spec.KeyLine.key k).text = encodeKey k := by
        unfold stripCr
        rw [if_neg]
        · rfl
        · intro hc
          have := (encodeKey_printable k 13 (List.mem_of_getLast? hc)).1.1
          simp at this
      obtain ⟨c0, t0, hkey⟩ := List.exists_cons_of_ne_nil (encodeKey_ne_nil k hkn)
      have hc0 := encodeKey_printable k c0 (by simp [hkey])
      rw [hs, List.filter_cons_of_pos (utf8Valid_encodeKey k), authorizedGo,
        if_neg (by
          rw [skipLine_printable _ c0 (by simp [hkey]) hc0.1 (by simp [hkey, hc0.2])]; simp),
        c33_round_trip.2.2.1 point k hl.1 hl.2, ih]
      rfl
    | comment t =>
      have hs : (stripCr (Spec.KeyLine.comment t).text).head? = some 35 := by
        show (stripCr (35 :: t)).head? = some 35
        unfold stripCr
        split
        · rename_i hc
          cases t with
          | nil => simp at hc
          | cons a t => rfl
        · rfl
      rw [List.filterMap_cons_none rfl]
      by_cases hv : utf8Valid (stripCr (Spec.KeyLine.comment t).text) = true
      · rw [List.filter_cons_of_pos hv, authorizedGo_skip point _ _ (by unfold skipLine; simp [hs])]
        exact ih
      · rw [List.filter_cons_of_neg hv]
        exact ih
    | blank w =>
      have hs : stripCr w = w := by
        unfold stripCr
        rw [if_neg]
        intro hc
        rcases hl 13 (List.mem_of_getLast? hc) with h | h <;> cases h
      rw [List.filterMap_cons_none rfl]
      have hv : utf8Valid w = true := utf8Valid_ascii fun x hx => by
        rcases hl x hx with rfl | rfl <;> decide
      show authorizedGo point (List.filter _ (stripCr w :: _)) = _
      rw [hs, List.filter_cons_of_pos hv, authorizedGo_skip point _ _ (skipLine_blank w hl)]
      exact ih

/-- The text `l` is a whole line of the file `f`. -/
def Spec.HasLine (f l : Bytes) : Prop :=
  (10 : UInt8) ∉ l ∧ ∃ a b, f = a ++ l ++ 10 :: b ∧ (a = [] ∨ a.getLast? = some 10)

theorem hasLine_raw (f l : Bytes) (h : Spec.HasLine f l) (hcr : l.getLast? ≠ some 13) : l ∈ rawLines f := by
  obtain ⟨hn, a, b, rfl, ha⟩ := h
  have hs : stripCr l = l := by unfold stripCr; rw [if_neg hcr]
  rcases ha with rfl | ha
  · rw [List.nil_append]
    unfold rawLines
    rw [rawLinesGo_line [] l b hn]
    simp [hs]
  · obtain ⟨a', rfl⟩ : ∃ a', a = a' ++ [10] := by
      refine ⟨a.dropLast, ?_⟩
      have hne : a ≠ [] := by rintro rfl; simp at ha
      rw [List.getLast?_eq_some_getLast hne] at ha
      have := List.dropLast_concat_getLast hne
      rw [Option.some.inj ha] at this
      exact this.symm
    unfold rawLines
    rw [show a' ++ [10] ++ l ++ 10 :: b = a' ++ 10 :: (l ++ 10 :: b) by simp, rawLinesGo_append,
      rawLinesGo_line [] l b hn]
    simp [hs]

/-- **C35**, second half (partial): if a file has a line of text which is not a comment, has something printable on it
and is not a key, reading the file fails as a whole. Missing: lines which are not UTF-8, see
`c35_non_utf8_line_skipped`. -/
theorem c35_bad_line_rejected_partial (point : Bytes → Bool) (f l : Bytes) (hl : Spec.HasLine f l)
    (hcr : l.getLast? ≠ some 13) (hu : utf8Valid l = true) (hc : l.head? ≠ some 35)
    (hp : ∃ c ∈ l, Spec.printable c) (hk : decodeVerifyingKey point l = none) : readAuthorizedKeys point f = none := by
  have hm : l ∈ lines f := List.mem_filter.mpr ⟨hasLine_raw f l hl hcr, hu⟩
  unfold readAuthorizedKeys
  generalize lines f = ls at hm
  obtain ⟨c, hc', hp⟩ := hp
  induction ls with
  | nil => cases hm
  | cons x r ih =>
    rw [authorizedGo]
    rcases List.mem_cons.mp hm with rfl | hm
    · rw [if_neg (by rw [skipLine_printable l c hc' hp hc]; simp), hk]
      rfl
    · rw [ih hm]
      split
      · rfl
      · cases decodeVerifyingKey point x <;> rfl

/-- Every returned key is the decoding of a line of the file. -/
theorem c35_keys_from_lines (point : Bytes → Bool) (f : Bytes) (ks : List Bytes)
    (h : readAuthorizedKeys point f = some ks) (k : Bytes) (hk : k ∈ ks) :
    ∃ l ∈ rawLines f, decodeVerifyingKey point l = some k := by
  have key : ∀ ls ks, authorizedGo point ls = some ks → k ∈ ks → ∃ l ∈ ls, decodeVerifyingKey point l = some k := by
    intro ls
    induction ls with
    | nil => intro ks h hk; cases h; cases hk
    | cons x r ih =>
      intro ks h hk
      rw [authorizedGo] at h
      split at h
      · obtain ⟨l, hl, h⟩ := ih _ h hk
        exact ⟨l, List.mem_cons_of_mem _ hl, h⟩
      · simp only [Option.bind_eq_bind, Option.bind_eq_some_iff, Option.pure_def, Option.some.injEq] at h
        obtain ⟨k1, h1, ks1, h2, rfl⟩ := h
        rcases List.mem_cons.mp hk with rfl | hk
        · exact ⟨x, by simp, h1⟩
        · obtain ⟨l, hl, h⟩ := ih _ h2 hk
          exact ⟨l, List.mem_cons_of_mem _ hl, h⟩
  obtain ⟨l, hl, h⟩ := key _ _ h hk
  exact ⟨l, (List.mem_filter.mp hl).1, h⟩

/-- Finding: a line which is not UTF-8 is neither a key nor an error, it is skipped. -/
theorem c35_non_utf8_line_skipped (point : Bytes → Bool) (k : Bytes) (hk : k.length = 32) (hp : point k = true) :
    readAuthorizedKeys point ([0xFF, 0x41, 10] ++ (encodeKey k ++ [10])) = some [k] := by
  have h := c35_keys_in_order point [.key k] (by simp [Spec.KeyLine.ok, hk, hp])
  unfold readAuthorizedKeys lines at h ⊢
  have : rawLines ([0xFF, 0x41, 10] ++ (encodeKey k ++ [10])) = [0xFF, 0x41] :: rawLines (encodeKey k ++ [10]) := rfl
  rw [this, List.filter_cons_of_neg (by decide)]
  simpa [Spec.KeyLine.text, Spec.KeyLine.key?, encodeKey] using h

-- satisfiable hypotheses
example : Spec.HostName (ascii "localhost:3000") := ⟨by decide, by decide, by decide, by decide⟩
example : getKnownHost (fun _ => true) (ascii "# hosts") (ascii "a:1") = .absent := by
  rfl
example : Spec.HasLine (ascii "#x\nkey\n") (ascii "key") :=
  ⟨by decide, ascii "#x\n", [], by decide, .inr (by decide)⟩

end Tftp

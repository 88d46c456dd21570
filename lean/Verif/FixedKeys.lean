import Verif.KeyFiles
import Verif.FixedText
import Verif.Options
/-
C92: key files without `alloc` and `std`: a line is read into a string of 140 bytes (std-binary/src/std_compat.rs:97-107, src/std_compat.rs:61-80), a line which
does not fit is an error and therefore skipped, and the list of authorized keys holds 128 keys (src/key_management.rs:9-10); what `push` returns is not looked at.
-/
namespace Tftp
open Spec

/-- src/key_management.rs:10, src/config.rs:44: room for so many authorized keys. -/
def authorizedCap : Nat := 128

/-- src/std_compat.rs:61-80 `Lines::next` over std-binary/src/std_compat.rs:98-106 `read_line` as raw lines: a line with its line break has to fit. -/
def rawLinesInGo (cap : Nat) (acc : Bytes) : Bytes → List Bytes
  | [] => if acc = [] then [] else if acc.length ≤ cap then [acc.reverse] else []
  | c :: r => if c = 10 then (if acc.length + 1 ≤ cap then stripCr acc.reverse :: rawLinesInGo cap [] r else rawLinesInGo cap [] r)
    else rawLinesInGo cap (c :: acc) r

/-- src/key_management.rs:15-18, 32-35 without `alloc`. -/
def linesIn (f : Bytes) : List Bytes := (rawLinesInGo defaultStringCap [] f).filter fun l => utf8Valid l

/-- src/key_management.rs:13-26 `read_authorized_keys` without `alloc`, on lines; `acc`: the keys so far. -/
def authorizedInGo (point : Bytes → Bool) (acc : List Bytes) : List Bytes → Option (List Bytes)
  | [] => some acc
  | l :: r =>
    if skipLine l then authorizedInGo point acc r
    else match decodeVerifyingKey point l with
      | none => none
      | some k => authorizedInGo point (if acc.length < authorizedCap then acc ++ [k] else acc) r

/-- src/key_management.rs:13-26 without `alloc`. -/
def readAuthorizedKeysIn (point : Bytes → Bool) (f : Bytes) : Option (List Bytes) := authorizedInGo point [] (linesIn f)

/-- src/key_management.rs:28-47 `get_from_known_hosts` without `alloc`. -/
def getKnownHostIn (point : Bytes → Bool) (f e : Bytes) : Lookup := knownGo point e (linesIn f)

/-- std-binary/src/encryption_io.rs:82-109 `handle_hosts_file` without `alloc`. -/
def handleHostsFileIn (point : Bytes → Bool) (f e k : Bytes) : Bytes :=
  match getKnownHostIn point f e with
  | .found _ => f
  | _ => appendKnownHost f e k

/-- std-binary/src/encryption_io.rs:66-78 without `alloc`: the first line of the key file, with its line break if it has one, has to fit in the string. -/
def firstLineIn (f : Bytes) : Option Bytes :=
  let l := f.takeWhile (· ≠ 10)
  if l.length + (if l.length < f.length then 1 else 0) ≤ defaultStringCap then firstLine f else none

/-- std-binary/src/encryption_io.rs:57-80 `read_private_value_or_file` without `alloc`. -/
def privateOptionIn (files : Bytes → Option Bytes) (arg : Bytes) : Option Bytes := readPrivate ((files arg).bind firstLineIn) arg

/-! ### Specification -/

/-- Specification: lines one below the other. -/
def Spec.text (ls : List Bytes) : Bytes := ls.flatMap (· ++ [10])

/-- Specification: `g` is the file `f` without the lines which are longer than 140 bytes, line break included. `last` is what follows the last line break. -/
def Spec.WithoutLong (f g : Bytes) : Prop :=
  ∃ ls last, (∀ l ∈ ls, (10 : UInt8) ∉ l) ∧ (10 : UInt8) ∉ last ∧ f = text ls ++ last ∧
    g = text (ls.filter fun l => l.length + 1 ≤ 140) ++ (if last.length ≤ 140 then last else [])

/-! ### Lines -/

theorem text_cons (l : Bytes) (ls : List Bytes) : text (l :: ls) = l ++ 10 :: text ls := by simp [text]

theorem text_append' (a b : List Bytes) : text (a ++ b) = text a ++ text b := by simp [text]

/-- Every file consists of lines. -/
theorem withoutLong_exists (f : Bytes) : ∃ g, WithoutLong f g := by
  suffices h : ∃ ls last, (∀ l ∈ ls, (10 : UInt8) ∉ l) ∧ (10 : UInt8) ∉ last ∧ f = text ls ++ last by
    obtain ⟨ls, last, h1, h2, h3⟩ := h
    exact ⟨_, ls, last, h1, h2, h3, rfl⟩
  induction f with
  | nil => exact ⟨[], [], by simp, by simp, rfl⟩
  | cons c r ih =>
    obtain ⟨ls, last, h1, h2, rfl⟩ := ih
    by_cases hc : c = 10
    · subst hc
      exact ⟨[] :: ls, last, by simpa using h1, h2, by simp [text_cons]⟩
    · cases ls with
      | nil => exact ⟨[], c :: last, by simp, by simp [h2, Ne.symm hc], rfl⟩
      | cons l ls =>
        refine ⟨(c :: l) :: ls, last, ?_, h2, by simp [text_cons]⟩
        intro x hx
        rcases List.mem_cons.mp hx with rfl | hx
        · have := h1 l (List.mem_cons_self ..)
          simp [this, Ne.symm hc]
        · exact h1 x (List.mem_cons_of_mem _ hx)

theorem rawLinesInGo_line (cap : Nat) (acc l r : Bytes) (h : (10 : UInt8) ∉ l) :
    rawLinesInGo cap acc (l ++ 10 :: r) =
      if acc.length + l.length + 1 ≤ cap then stripCr (acc.reverse ++ l) :: rawLinesInGo cap [] r else rawLinesInGo cap [] r := by
  induction l generalizing acc with
  | nil => simp [rawLinesInGo]
  | cons c l ih =>
    simp only [List.mem_cons, not_or] at h
    simp only [List.cons_append, rawLinesInGo, if_neg (Ne.symm h.1)]
    rw [ih _ h.2]
    simp only [List.length_cons, List.reverse_cons, List.append_assoc, List.cons_append, List.nil_append]
    rw [show acc.length + 1 + l.length + 1 = acc.length + (l.length + 1) + 1 by omega]

theorem rawLinesInGo_last (cap : Nat) (acc l : Bytes) (h : (10 : UInt8) ∉ l) :
    rawLinesInGo cap acc l = if acc.reverse ++ l = [] then [] else if acc.length + l.length ≤ cap then [acc.reverse ++ l] else [] := by
  induction l generalizing acc with
  | nil => simp [rawLinesInGo]
  | cons c l ih =>
    simp only [List.mem_cons, not_or] at h
    simp only [rawLinesInGo, if_neg (Ne.symm h.1)]
    rw [ih _ h.2]
    simp only [List.length_cons, List.reverse_cons, List.append_assoc, List.cons_append, List.nil_append]
    rw [show acc.length + 1 + l.length = acc.length + (l.length + 1) by omega]

theorem rawLinesGo_last (acc l : Bytes) (h : (10 : UInt8) ∉ l) : rawLinesGo acc l = if acc.reverse ++ l = [] then [] else [acc.reverse ++ l] := by
  induction l generalizing acc with
  | nil => simp [rawLinesGo]
  | cons c l ih =>
    simp only [List.mem_cons, not_or] at h
    simp only [rawLinesGo, if_neg (Ne.symm h.1)]
    rw [ih _ h.2]
    simp

theorem linesIn_eq {f g : Bytes} (h : WithoutLong f g) : linesIn f = lines g := by
  obtain ⟨ls, last, h1, h2, rfl, rfl⟩ := h
  unfold linesIn lines rawLines defaultStringCap
  congr 1
  induction ls with
  | nil =>
    simp only [text, List.flatMap_nil, List.nil_append, List.filter_nil]
    rw [rawLinesInGo_last _ _ _ h2]
    simp only [List.reverse_nil, List.nil_append, List.length_nil, Nat.zero_add]
    split
    · next hl => subst hl; rfl
    · split
      · next hl _ => rw [rawLinesGo_last _ _ h2]; simp [hl]
      · rfl
  | cons l ls ih =>
    have hl := h1 l (List.mem_cons_self ..)
    have ih := ih fun x hx => h1 x (List.mem_cons_of_mem _ hx)
    rw [text_cons, List.append_assoc, List.cons_append, rawLinesInGo_line _ _ _ _ hl, ih]
    simp only [List.length_nil, Nat.zero_add, List.reverse_nil, List.nil_append, List.filter_cons]
    by_cases hs : l.length + 1 ≤ 140
    · simp only [hs, decide_true, ↓reduceIte]
      rw [text_cons, List.append_assoc, List.cons_append, rawLinesGo_line _ _ _ hl]
      simp
    · simp only [hs, decide_false, ↓reduceIte, Bool.false_eq_true]

theorem authorizedInGo_eq (point : Bytes → Bool) (acc : List Bytes) (ls : List Bytes) (h : acc.length ≤ authorizedCap) :
    authorizedInGo point acc ls = (authorizedGo point ls).map fun ks => (acc ++ ks).take authorizedCap := by
  induction ls generalizing acc with
  | nil => simp only [authorizedInGo, authorizedGo, Option.map_some, List.append_nil]; rw [List.take_of_length_le (l := acc) h]
  | cons l ls ih =>
    simp only [authorizedInGo, authorizedGo]
    split
    · exact ih acc h
    · cases decodeVerifyingKey point l with
      | none => rfl
      | some k =>
        simp only [Option.bind_eq_bind, Option.bind_some]
        by_cases hc : acc.length < authorizedCap
        · simp only [if_pos hc]
          rw [ih _ (by simp; omega)]
          cases authorizedGo point ls <;> simp
        · simp only [if_neg hc]
          rw [ih _ h]
          cases authorizedGo point ls with
          | none => rfl
          | some ks =>
            simp only [Option.map_some, Option.bind_some]
            have : acc.length = authorizedCap := by omega
            rw [show ∀ x : List Bytes, (acc ++ x).take authorizedCap = acc from fun x => by rw [← this, List.take_left]]
            show some acc = Option.map _ (some (k :: ks))
            simp only [Option.map_some, ← this, List.take_left]

/-- **C92**: a key file in fixed memory counts as the file without its long lines; of the authorized keys the first 128 are taken, of the known hosts all. -/
theorem c92_files (point : Bytes → Bool) (f g : Bytes) (h : WithoutLong f g) :
    readAuthorizedKeysIn point f = (readAuthorizedKeys point g).map (List.take 128) ∧ ∀ e, getKnownHostIn point f e = getKnownHost point g e := by
  refine ⟨?_, fun e => ?_⟩
  · unfold readAuthorizedKeysIn readAuthorizedKeys
    rw [linesIn_eq h, authorizedInGo_eq _ _ _ (by simp)]
    simp only [List.nil_append]
    rfl
  · unfold getKnownHostIn getKnownHost
    rw [linesIn_eq h]

/-- **C92**: nobody is authorized whose key is not in the file, and whoever is authorized with an allocator is authorized in fixed memory if all lines are short
and there are at most 128 keys. -/
theorem c92_authorized (point : Bytes → Bool) (f : Bytes) :
    (∀ ks k, readAuthorizedKeysIn point f = some ks → k ∈ ks → ks.length ≤ 128 ∧ ∃ l ∈ rawLines f, decodeVerifyingKey point l = some k) ∧
      (WithoutLong f f → ∀ ks, readAuthorizedKeys point f = some ks → readAuthorizedKeysIn point f = some (ks.take 128)) := by
  refine ⟨fun ks k h hk => ?_, fun hf ks h => ?_⟩
  · obtain ⟨g, hg⟩ := withoutLong_exists f
    rw [(c92_files point f g hg).1] at h
    cases hr : readAuthorizedKeys point g with
    | none => rw [hr] at h; cases h
    | some ks' =>
      rw [hr] at h
      simp only [Option.map_some, Option.some.injEq] at h
      subst h
      refine ⟨by simp; omega, ?_⟩
      obtain ⟨l, hl, hd⟩ := c35_keys_from_lines point g ks' hr k (List.mem_of_mem_take hk)
      refine ⟨l, ?_, hd⟩
      obtain ⟨ls, last, h1, h2, rfl, rfl⟩ := hg
      clear hr hk hd ks'
      unfold rawLines at hl ⊢
      induction ls with
      | nil =>
        simp only [text, List.flatMap_nil, List.nil_append, List.filter_nil] at hl ⊢
        split at hl
        · exact hl
        · simp [rawLinesGo] at hl
      | cons x ls ih =>
        have hx := h1 x (List.mem_cons_self ..)
        have ih := ih fun y hy => h1 y (List.mem_cons_of_mem _ hy)
        rw [text_cons, List.append_assoc, List.cons_append, rawLinesGo_line _ _ _ hx]
        rw [List.filter_cons] at hl
        split at hl
        · rw [text_cons, List.append_assoc, List.cons_append, rawLinesGo_line _ _ _ hx] at hl
          rcases List.mem_cons.mp hl with e | hl
          · rw [e]; exact List.mem_cons_self ..
          · exact List.mem_cons_of_mem _ (ih hl)
        · exact List.mem_cons_of_mem _ (ih hl)
  · rw [(c92_files point f f hf).1, h]
    rfl

/-- **C92**, the limit: of more than 128 keys the file holds, one below the other, the first 128 are authorized and the others are not; nothing reports it. -/
theorem c92_too_many (point : Bytes → Bool) (ks : List Bytes) (h : ∀ k ∈ ks, k.length = 32 ∧ point k = true) :
    readAuthorizedKeysIn point (text (ks.map encodeKey)) = some (ks.take 128) ∧ readAuthorizedKeys point (text (ks.map encodeKey)) = some ks := by
  have h1 : readAuthorizedKeys point (text (ks.map encodeKey)) = some ks := by
    have := c35_keys_in_order point (ks.map .key) (by intro l hl; obtain ⟨k, hk, rfl⟩ := List.mem_map.mp hl; exact h k hk)
    rw [List.flatMap_map, List.filterMap_map] at this
    simp only [text, List.flatMap_map]
    rw [show (ks.filterMap (Spec.KeyLine.key? ∘ Spec.KeyLine.key)) = ks from by
      rw [show (Spec.KeyLine.key? ∘ Spec.KeyLine.key) = some from rfl]; exact List.filterMap_some] at this
    exact this
  have hlen : ∀ k ∈ ks, (encodeKey k).length = 44 := by
    intro k hk
    have := b64encode_length k
    unfold encodeKey
    rw [this, (h k hk).1]
  refine ⟨(c92_authorized point _).2 ⟨ks.map encodeKey, [], ?_, by simp, by simp, ?_⟩ ks h1, h1⟩
  · intro l hl hm
    obtain ⟨k, hk, rfl⟩ := List.mem_map.mp hl
    have := (encodeKey_printable k 10 hm).1
    simp [printable] at this
  · rw [List.filter_eq_self.mpr]
    · simp
    · intro l hl
      obtain ⟨k, hk, rfl⟩ := List.mem_map.mp hl
      simp [hlen k hk]

/-! ### Known hosts -/

/-- A file the program has written: empty, or its last line is complete. -/
theorem withoutLong_append {f g e k : Bytes} (h : WithoutLong f g) (hf : f = [] ∨ f.getLast? = some 10) (he : HostName e) (hk : k.length = 32) :
    WithoutLong (appendKnownHost f e k) (if e.length ≤ 94 then appendKnownHost g e k else g ++ [10]) ∧ (g = [] ∨ g.getLast? = some 10) := by
  obtain ⟨ls, last, h1, h2, rfl, rfl⟩ := h
  have hlast : last = [] := by
    rcases hf with hf | hf
    · exact (List.append_eq_nil_iff.mp hf).2
    · cases hl : last.getLast? with
      | none => exact List.getLast?_eq_none_iff.mp hl
      | some c =>
        rw [List.getLast?_append, hl] at hf
        simp only [Option.some_or, Option.some.injEq] at hf
        subst hf
        exact absurd (List.mem_of_getLast? hl) h2
  subst hlast
  have hlen : (encodeKey k).length = 44 := by unfold encodeKey; rw [b64encode_length, hk]
  have hn : (10 : UInt8) ∉ e ++ 32 :: encodeKey k := by
    intro hm
    rcases List.mem_append.mp hm with hm | hm
    · exact he.noNewline hm
    · rcases List.mem_cons.mp hm with hm | hm
      · cases hm
      · have := (encodeKey_printable k 10 hm).1
        simp [printable] at this
  have hends : ∀ x : List Bytes, text x = [] ∨ (text x).getLast? = some 10 := by
    intro x
    cases x with
    | nil => exact .inl rfl
    | cons a x =>
      right
      induction x generalizing a with
      | nil => rw [text_cons]; simp [text]
      | cons b x ih =>
        rw [text_cons, List.getLast?_append, List.getLast?_cons_of_ne_nil (by rw [text_cons]; simp), ih b]
        rfl
  refine ⟨⟨ls ++ [[], e ++ 32 :: encodeKey k], [], ?_, by simp, ?_, ?_⟩, ?_⟩
  · intro l hl
    rcases List.mem_append.mp hl with hl | hl
    · exact h1 l hl
    · rcases List.mem_cons.mp hl with rfl | hl
      · simp
      · rw [List.mem_singleton.mp hl]; exact hn
  · rw [text_append', text_cons, text_cons]
    simp [appendKnownHost, text]
  · rw [List.filter_append, text_append']
    simp only [List.filter_cons, List.length_nil, List.length_append, List.length_cons, hlen, List.filter_nil]
    by_cases hs : e.length ≤ 94
    · rw [if_pos hs]
      rw [show decide (e.length + (44 + 1) + 1 ≤ 140) = true by simp; omega]
      simp [appendKnownHost, text]
    · rw [if_neg hs]
      rw [show decide (e.length + (44 + 1) + 1 ≤ 140) = false by simp; omega]
      simp [text]
  · simpa using hends _

/-- An empty line at the end changes nothing. -/
theorem known_blank (point : Bytes → Bool) (g e : Bytes) (hg : g = [] ∨ g.getLast? = some 10) : getKnownHost point (g ++ [10]) e = getKnownHost point g e := by
  have hr : restGo [] g = [] := by
    have key : ∀ acc g, (acc = [] ∧ g = [] ∨ g.getLast? = some 10) → restGo acc g = [] := by
      intro acc g
      induction g generalizing acc with
      | nil => rintro (⟨rfl, -⟩ | h); · rfl
               · cases h
      | cons c r ih =>
        intro h
        rcases h with ⟨-, h⟩ | h
        · cases h
        · simp only [restGo]
          split
          · refine ih [] ?_
            cases r with
            | nil => exact .inl ⟨rfl, rfl⟩
            | cons d r => rw [List.getLast?_cons_of_ne_nil (by simp)] at h; exact .inr h
          · next hc =>
            cases r with
            | nil => simp at h; exact absurd h hc
            | cons d r => rw [List.getLast?_cons_of_ne_nil (by simp)] at h; exact ih _ (.inr h)
    exact key [] g (by rcases hg with rfl | h; · exact .inl ⟨rfl, rfl⟩
                       · exact .inr h)
  unfold getKnownHost lines rawLines
  rw [rawLinesGo_append, rawLinesGo_eq [] g, hr]
  simp only [rawLinesGo, ↓reduceIte, List.append_nil, List.filter_append]
  have : stripCr [] = [] := rfl
  rw [this, knownGo_append]
  cases knownGo point e ((fullLinesGo [] g).filter fun l => utf8Valid l) <;> simp [knownGo_nil_line, knownGo, utf8Valid]

/-- **C92**: hosts with names (with port) of at most 94 bytes are recorded and found again in fixed memory as with an allocator (C34). -/
theorem c92_recorded (point : Bytes → Bool) (f e k : Bytes) (hf : f = [] ∨ f.getLast? = some 10) (he : HostName e) (hl : e.length ≤ 94)
    (hk : k.length = 32) (hp : point k = true) :
    (getKnownHostIn point f e = .absent → getKnownHostIn point (handleHostsFileIn point f e k) e = .found k) ∧
      (∀ k0, getKnownHostIn point f e = .found k0 → handleHostsFileIn point f e k = f) ∧
      (∀ e', e' ≠ e → getKnownHostIn point (handleHostsFileIn point f e k) e' = getKnownHostIn point f e') := by
  obtain ⟨g, hg⟩ := withoutLong_exists f
  obtain ⟨h1, h2⟩ := withoutLong_append (k := k) hg hf he hk
  rw [if_pos hl] at h1
  have hg13 : g.getLast? ≠ some 13 := by rcases h2 with rfl | h2 <;> simp_all
  obtain ⟨c1, -, c3⟩ := c34_known_hosts point g e k hg13 he hk hp
  have e0 := fun x => (c92_files point f g hg).2 x
  have e1 := fun x => (c92_files point _ _ h1).2 x
  refine ⟨fun h => ?_, fun k0 h => ?_, fun e' hne => ?_⟩
  · unfold handleHostsFileIn
    rw [h]
    simp only
    rw [e1]
    exact c1 (by rw [← e0]; exact h)
  · unfold handleHostsFileIn
    rw [h]
  · unfold handleHostsFileIn
    split
    · rfl
    · rw [e1, e0]
      exact c3 e' hne

/-- **C92**, the limit: a longer name is recorded in vain. However often its key is recorded, the lookup says what it said before, so that a client to whom the
server was unknown does not notice a changed key, and every session adds the entry again. -/
theorem c92_forgotten (point : Bytes → Bool) (f e k : Bytes) (hf : f = [] ∨ f.getLast? = some 10) (he : HostName e) (hl : 94 < e.length) (hk : k.length = 32) :
    (∀ e', getKnownHostIn point (handleHostsFileIn point f e k) e' = getKnownHostIn point f e') ∧
      (getKnownHostIn point f e = .absent → handleHostsFileIn point f e k = appendKnownHost f e k ∧
        (handleHostsFileIn point f e k).getLast? = some 10) := by
  obtain ⟨g, hg⟩ := withoutLong_exists f
  obtain ⟨h1, h2⟩ := withoutLong_append (k := k) hg hf he hk
  rw [if_neg (by omega)] at h1
  have e0 := fun x => (c92_files point f g hg).2 x
  have e1 := fun x => (c92_files point _ _ h1).2 x
  refine ⟨fun e' => ?_, fun h => ?_⟩
  · unfold handleHostsFileIn
    split
    · rfl
    · rw [e1, e0]
      exact known_blank point g e' h2
  · unfold handleHostsFileIn
    rw [h]
    refine ⟨rfl, ?_⟩
    show (f ++ (10 :: e ++ 32 :: encodeKey k ++ [10])).getLast? = some 10
    rw [← List.append_assoc, List.getLast?_concat]

/-- **C92**: private keys. A key given as text, or in a file whose first line is not longer than 139 bytes, is read as with an allocator; a file with a longer first
line is as one which cannot be read. -/
theorem c92_private (files : Bytes → Option Bytes) (arg line rest : Bytes) (h0 : (10 : UInt8) ∉ line) (hf : files arg = some (line ++ 10 :: rest)) :
    (line.length ≤ 139 → privateOptionIn files arg = privateOption files arg) ∧
      (139 < line.length → privateOptionIn files arg = privateOption (fun _ => none) arg) := by
  have ht : (line ++ 10 :: rest).takeWhile (· ≠ 10) = line := by
    rw [List.takeWhile_append_of_pos (by intro a ha; simp only [ne_eq, decide_not, Bool.not_eq_eq_eq_not, Bool.not_true, decide_eq_false_iff_not]; rintro rfl; exact h0 ha)]
    simp
  have hlt : line.length < (line ++ 10 :: rest).length := by simp
  unfold privateOptionIn privateOption
  rw [hf]
  simp only [Option.bind_some, Option.bind_none]
  unfold firstLineIn
  simp only [ht, if_pos hlt]
  unfold defaultStringCap
  refine ⟨fun h => ?_, fun h => ?_⟩
  · rw [if_pos (by omega)]
  · rw [if_neg (by omega)]

/-! ### Examples -/

/-- Non-vacuity: a name of 95 bytes, recorded twice in an empty file, is still unknown; one of 94 bytes is known. -/
example : HostName (List.replicate 95 97) ∧ HostName (List.replicate 94 97) := by
  constructor <;> exact ⟨by decide +kernel, by decide +kernel, by decide +kernel, by decide +kernel⟩

example : getKnownHostIn (fun _ => true) (handleHostsFileIn (fun _ => true) (handleHostsFileIn (fun _ => true) [] (List.replicate 95 97) (List.replicate 32 1))
      (List.replicate 95 97) (List.replicate 32 2)) (List.replicate 95 97) = .absent ∧
    getKnownHost (fun _ => true) (handleHostsFile (fun _ => true) (handleHostsFile (fun _ => true) [] (List.replicate 95 97) (List.replicate 32 1))
      (List.replicate 95 97) (List.replicate 32 2)) (List.replicate 95 97) = .found (List.replicate 32 1) := by
  have he : HostName (List.replicate 95 97) := ⟨by decide +kernel, by decide +kernel, by decide +kernel, by decide +kernel⟩
  have hk : ∀ n : UInt8, (List.replicate 32 n).length = 32 := fun n => List.length_replicate
  have hl : 94 < (List.replicate 95 (97 : UInt8)).length := by rw [List.length_replicate]; omega
  generalize (List.replicate 95 97 : Bytes) = e at *
  have h0 : getKnownHostIn (fun _ => true) [] e = .absent := rfl
  obtain ⟨g1, g2⟩ := c92_forgotten (fun _ => true) [] e (List.replicate 32 1) (.inl rfl) he hl (hk 1)
  obtain ⟨g3, -⟩ := c92_forgotten (fun _ => true) _ e (List.replicate 32 2) (.inr (g2 h0).2) he hl (hk 2)
  obtain ⟨k1, k2⟩ := c34_trust_on_first_use (fun _ => true) [] e (List.replicate 32 1) (List.replicate 32 2) (by simp) he (hk 1) rfl
  refine ⟨by rw [g3, g1]; exact h0, ?_⟩
  obtain ⟨f1, f2⟩ := k2 rfl
  rw [f2]
  exact f1

end Tftp

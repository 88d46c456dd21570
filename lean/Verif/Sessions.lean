import Verif.KeyFiles
import Verif.ClientSecure
/-
C60, C61: the known hosts file over many runs of the client binary (std-binary/src/config.rs:22-34, std-binary/src/sender.rs:71-106,
std-binary/src/receiver.rs:66-99, std-binary/src/encryption_io.rs:82-106).
-/
namespace Tftp
open Spec

/-- One run of the client binary with `--known-hosts`. `endpoint`: the text the user gave; `serverKey`: the text given with
`--server-public-key`; `outcome`: what `send_file`/`receive_file` returned: `none` is an error, otherwise the server's key, if any. -/
structure Visit where
  endpoint : Bytes
  serverKey : Option Bytes
  outcome : Option (Option Bytes)

/-- std-binary/src/config.rs:22-34: `remote_public_key`. `file`: the known hosts file, `none` if there is none. The result `none` is an
error: the client gives up before it sends anything. -/
def configuredKey (point : Bytes → Bool) (file : Option Bytes) (x : Visit) : Option (Option Bytes) :=
  match x.serverKey, file with
  | some t, _ => (decodeVerifyingKey point t).map some
  | none, none => none
  | none, some f => match getKnownHost point f x.endpoint with
    | .absent => some none
    | .found k => some (some k)
    | .error => none

/-- std-binary/src/sender.rs:71-106, std-binary/src/receiver.rs:66-99 and std-binary/src/encryption_io.rs:82-106: the known hosts file after the run. (It
can be written.) -/
def visit (point : Bytes → Bool) (file : Option Bytes) (x : Visit) : Option Bytes :=
  match configuredKey point file x, x.outcome with
  | some _, some (some k) => some (handleHostsFile point (file.getD []) x.endpoint k)
  | _, _ => file

/-- Runs of the client one after the other. -/
def visits (point : Bytes → Bool) (file : Option Bytes) (xs : List Visit) : Option Bytes := xs.foldl (visit point) file

/-- Specification: a run with a proper host name, and a server key which is a key. -/
structure Spec.Proper (point : Bytes → Bool) (x : Visit) : Prop where
  host : HostName x.endpoint
  key : ∀ k, x.outcome = some (some k) → k.length = 32 ∧ point k = true

theorem append_last (f e k : Bytes) : (appendKnownHost f e k).getLast? ≠ some 13 := by
  unfold appendKnownHost
  have : f ++ (10 :: e ++ 32 :: encodeKey k ++ [10]) = (f ++ 10 :: e ++ 32 :: encodeKey k) ++ [10] := by simp
  rw [this, List.getLast?_concat]
  decide

/-- One run: an entry is kept, and the file stays well formed. -/
theorem visit_keeps {point : Bytes → Bool} {f : Bytes} (hf : f.getLast? ≠ some 13) {x : Visit} (hx : Proper point x) :
    ∃ f', visit point (some f) x = some f' ∧ f'.getLast? ≠ some 13 ∧
      ∀ e, getKnownHost point f e ≠ .absent → getKnownHost point f' e = getKnownHost point f e := by
  unfold visit
  split
  · rename_i k _ ho
    obtain ⟨h1, h2⟩ := hx.key k ho
    simp only [Option.getD_some]
    unfold handleHostsFile
    split
    · exact ⟨f, rfl, hf, fun _ _ => rfl⟩
    · refine ⟨_, rfl, append_last _ _ _, fun e he => ?_⟩
      rw [lookup_append point f x.endpoint e k hf hx.host h1 h2]
      cases hg : getKnownHost point f e <;> simp_all
  · exact ⟨f, rfl, hf, fun _ _ => rfl⟩

theorem visits_keep {point : Bytes → Bool} {f : Bytes} (hf : f.getLast? ≠ some 13) {xs : List Visit} (hxs : ∀ x ∈ xs, Proper point x) :
    ∃ f', visits point (some f) xs = some f' ∧ f'.getLast? ≠ some 13 ∧
      ∀ e, getKnownHost point f e ≠ .absent → getKnownHost point f' e = getKnownHost point f e := by
  induction xs generalizing f with
  | nil => exact ⟨f, rfl, hf, fun _ _ => rfl⟩
  | cons x xs ih =>
    obtain ⟨f1, h1, h2, h3⟩ := visit_keeps hf (hxs x (by simp))
    obtain ⟨f2, g1, g2, g3⟩ := ih h2 fun y hy => hxs y (by simp [hy])
    refine ⟨f2, ?_, g2, fun e he => ?_⟩
    · simp only [visits, List.foldl_cons, h1]
      exact g1
    · rw [g3 e (by rw [h3 e he]; exact he), h3 e he]

/-- **C60**: a key which the known hosts file has for an endpoint is the one the client uses for it in every later run, whatever servers
it visits in between and whatever keys they present. -/
theorem c60_pinned (point : Bytes → Bool) (f e k : Bytes) (hf : f.getLast? ≠ some 13) (hk : getKnownHost point f e = .found k)
    (xs : List Visit) (hxs : ∀ x ∈ xs, Proper point x) (x : Visit) (he : x.endpoint = e) (hx : x.serverKey = none) :
    configuredKey point (visits point (some f) xs) x = some (some k) := by
  obtain ⟨f', h1, -, h3⟩ := visits_keep hf hxs
  have := h3 e (by rw [hk]; simp)
  unfold configuredKey
  rw [hx, h1, he]
  simp only [this, hk]

/-- **C60**, trust on first use: the key which the server had in the first successful run is used in all later ones. -/
theorem c60_first_use (point : Bytes → Bool) (f k : Bytes) (hf : f.getLast? ≠ some 13) (first : Visit) (hp : Proper point first)
    (hnew : getKnownHost point f first.endpoint = .absent) (hs : first.serverKey = none) (ho : first.outcome = some (some k))
    (xs : List Visit) (hxs : ∀ x ∈ xs, Proper point x) (x : Visit) (he : x.endpoint = first.endpoint) (hx : x.serverKey = none) :
    configuredKey point (some f) first = some none ∧
    configuredKey point (visits point (some f) (first :: xs)) x = some (some k) := by
  have hc : configuredKey point (some f) first = some none := by
    unfold configuredKey
    rw [hs]
    simp only [hnew]
  refine ⟨hc, ?_⟩
  obtain ⟨h1, h2⟩ := hp.key k ho
  have hv : visit point (some f) first = some (appendKnownHost f first.endpoint k) := by
    unfold visit
    rw [hc, ho]
    simp only [Option.getD_some]
    unfold handleHostsFile
    rw [hnew]
  have := c60_pinned point (appendKnownHost f first.endpoint k) first.endpoint k (append_last _ _ _)
    ((c34_known_hosts point f first.endpoint k hf hp.host h1 h2).1 hnew) xs hxs x he hx
  simpa only [visits, List.foldl_cons, hv] using this

/-- **C60**: a key given with `--server-public-key` is the one used, whatever the known hosts file has; a text which is no key stops the client, it is never
ignored. -/
theorem c60_given_key (point : Bytes → Bool) (file : Option Bytes) (x : Visit) (t : Bytes) (hx : x.serverKey = some t) :
    (∀ k, decodeVerifyingKey point t = some k → configuredKey point file x = some (some k)) ∧
    (decodeVerifyingKey point t = none → configuredKey point file x = none) := by
  unfold configuredKey
  rw [hx]
  exact ⟨fun k hk => by simp [hk], fun hk => by simp [hk]⟩

/-- **C60**, finding: if the known hosts file does not exist, a client without `--server-public-key` never gets as far as to connect, so no run ever
creates the file. -/
theorem c60_missing_file_blocks (point : Bytes → Bool) (xs : List Visit) (hs : ∀ x ∈ xs, x.serverKey = none) :
    visits point none xs = none ∧ ∀ x ∈ xs, ∀ before after, xs = before ++ x :: after → configuredKey point (visits point none before) x = none := by
  have key : ∀ ys : List Visit, (∀ x ∈ ys, x.serverKey = none) → visits point none ys = none := by
    intro ys hy
    induction ys with
    | nil => rfl
    | cons y ys ih =>
      have : visit point none y = none := by
        unfold visit configuredKey
        rw [hy y (by simp)]
      simp only [visits, List.foldl_cons, this]
      exact ih fun x hx => hy x (by simp [hx])
  refine ⟨key xs hs, ?_⟩
  intro x hx before after e
  rw [key before fun y hy => hs y (by rw [e]; simp [hy])]
  unfold configuredKey
  rw [hs x hx]

/-- **C60**, with the real client: a run whose key comes from the known hosts file, with a mandatory encryption level, never sends file data in the clear, whatever
the servers of this and all earlier runs do. -/
theorem c60_pinned_run_is_encrypted {S} (point : Bytes → Bool) (f e k : Bytes) (hf : f.getLast? ≠ some 13) (hk : getKnownHost point f e = .found k)
    (xs : List Visit) (hxs : ∀ x ∈ xs, Proper point x) (x : Visit) (he : x.endpoint = e) (hx : x.serverKey = none)
    (v : Cli S) (hv : configuredKey point (visits point (some f) xs) x = some v.cfg.remoteKey) (j : Job) (hl : Mandatory j.opts.level) (t : Nat) (is : List CliIn) :
    ∀ d ∈ (v.run j t is).2, Covered v d.2 := by
  rw [c60_pinned point f e k hf hk xs hxs x he hx] at hv
  exact c25_known_key_partial v j k (Option.some.inj hv).symm hl t is

/-- std-binary/src/config.rs:48-57: the text which is resolved to an address: without a colon the port is 69. -/
def resolvedName (e : Bytes) : Bytes := if (58 : UInt8) ∈ e then e else e ++ [58, 54, 57]

/-- **C60**, finding: keys are kept by the text of the endpoint, not by the address it stands for. After any runs against `h`, the same server called `h:69` is unknown. -/
theorem c60_other_spelling_not_pinned (point : Bytes → Bool) (h : Bytes) (hh : (58 : UInt8) ∉ h) (xs : List Visit) (hxs : ∀ x ∈ xs, Proper point x ∧ x.endpoint = h)
    (outcome : Option (Option Bytes)) :
    resolvedName (h ++ [58, 54, 57]) = resolvedName h ∧
    configuredKey point (visits point (some []) xs) ⟨h ++ [58, 54, 57], none, outcome⟩ = some none := by
  refine ⟨by simp [resolvedName, hh], ?_⟩
  have key : ∀ (ys : List Visit) (f : Bytes), (∀ x ∈ ys, Proper point x ∧ x.endpoint = h) → f.getLast? ≠ some 13 → getKnownHost point f (h ++ [58, 54, 57]) = .absent →
      ∃ f', visits point (some f) ys = some f' ∧ getKnownHost point f' (h ++ [58, 54, 57]) = .absent := by
    intro ys
    induction ys with
    | nil => intro f _ _ h; exact ⟨f, rfl, h⟩
    | cons y ys ih =>
      intro f hy hf ha
      obtain ⟨f1, h1, h2, -⟩ := visit_keeps hf (hy y (by simp)).1
      have h3 : getKnownHost point f1 (h ++ [58, 54, 57]) = .absent := by
        unfold visit at h1
        split at h1
        · rename_i k _ ho
          simp only [Option.getD_some, Option.some.injEq] at h1
          unfold handleHostsFile at h1
          split at h1
          · rw [← h1]; exact ha
          · rename_i hg
            obtain ⟨k1, k2⟩ := (hy y (by simp)).1.key _ ho
            rw [← h1, lookup_append point f y.endpoint _ _ hf (hy y (by simp)).1.host k1 k2, ha]
            rw [if_neg]
            rw [(hy y (by simp)).2]
            intro e
            have := congrArg List.length e
            simp at this
        · cases h1; exact ha
      simp only [visits, List.foldl_cons, h1]
      exact ih f1 (fun x hx => hy x (by simp [hx])) h2 h3
  obtain ⟨f', h1, h2⟩ := key xs [] hxs (by simp) rfl
  unfold configuredKey
  rw [h1]
  simp only [h2]

/-! ### Crashes and several clients at a time

`append_to_known_hosts` (src/key_management.rs:49-60) writes with `write_fmt` to an unbuffered file: one `write` for each piece of the format. -/

/-- src/key_management.rs:54-58: the writes of one append. -/
def appendWrites (e k : Bytes) : List Bytes := [[10], e, [32], encodeKey k, [10]]

/-- The file if the client is stopped after `n` of the writes. -/
def crashedAppend (f e k : Bytes) (n : Nat) : Bytes := f ++ ((appendWrites e k).take n).flatten

/-- All writes together. -/
theorem crashedAppend_all (f e k : Bytes) : crashedAppend f e k 5 = appendKnownHost f e k := by
  simp [crashedAppend, appendWrites, appendKnownHost]

/-- The lookup in a file which ends with a line without line break. -/
theorem lookup_tail (point : Bytes → Bool) (f t e' : Bytes) (hf : f.getLast? ≠ some 13) (ht : (10 : UInt8) ∉ t) (hu : utf8Valid t = true) :
    getKnownHost point (f ++ 10 :: t) e' = match getKnownHost point f e' with
      | .absent => knownGo point e' [t]
      | x => x := by
  have hraw : rawLines (f ++ 10 :: t) = fullLinesGo [] f ++ restGo [] f :: (if t = [] then [] else [t]) := by
    unfold rawLines
    rw [rawLinesGo_append, stripCr_rest f hf]
    congr 2
    have : ∀ (acc t : Bytes), (10 : UInt8) ∉ t → rawLinesGo acc t = if t.reverse ++ acc = [] then [] else [(t.reverse ++ acc).reverse] := by
      intro acc t
      induction t generalizing acc with
      | nil => intro _; rfl
      | cons x t ih =>
        intro h
        simp only [List.mem_cons, not_or] at h
        rw [rawLinesGo, if_neg (fun e => h.1 e.symm), ih _ h.2]
        simp
    rw [this [] t ht]
    simp
  have hraw0 : rawLines f = fullLinesGo [] f ++ (if restGo [] f = [] then [] else [restGo [] f]) := rawLinesGo_eq [] f
  have hempty : ∀ e', knownGo point e' [[]] = .absent := fun e' => by rw [knownGo_nil_line]; rfl
  have hl : knownGo point e' (lines (f ++ 10 :: t)) = knownGo point e' (lines f ++ [t]) := by
    unfold lines
    rw [hraw, hraw0]
    have hlast : knownGo point e' (List.filter (fun l => utf8Valid l) (if t = [] then [] else [t])) = knownGo point e' [t] := by
      split
      · rename_i ht0; subst ht0; rw [hempty]; rfl
      · rw [List.filter_cons_of_pos hu]; rfl
    by_cases hr : restGo [] f = []
    · rw [hr, if_pos rfl, List.append_nil, List.filter_append, List.filter_cons_of_pos (by rfl), knownGo_append, knownGo_append,
        knownGo_nil_line, hlast]
    · rw [if_neg hr, show restGo [] f :: (if t = [] then [] else [t]) = [restGo [] f] ++ (if t = [] then [] else [t]) from rfl,
        ← List.append_assoc, List.filter_append, knownGo_append, knownGo_append (a := List.filter _ _), hlast]
  unfold getKnownHost
  rw [hl, knownGo_append]
  cases knownGo point e' (lines f) <;> rfl

theorem lookup_word (point : Bytes → Bool) (e e' : Bytes) (he : (32 : UInt8) ∉ e) : knownGo point e' [e] = .absent := by
  have hs : splitOnce e = none := by
    induction e with
    | nil => rfl
    | cons x e ih =>
      simp only [List.mem_cons, not_or] at he
      rw [splitOnce, if_neg (fun h => he.1 h.symm), ih he.2]
      rfl
  rw [knownGo, hs]
  split <;> rfl

theorem lookup_entry (point : Bytes → Bool) (e e' t : Bytes) (he : (32 : UInt8) ∉ e) (hne : e' ≠ e) : knownGo point e' [e ++ 32 :: t] = .absent := by
  rw [knownGo, splitOnce_append _ _ he]
  split
  · rfl
  · simp only
    rw [if_neg (fun h => hne h.symm)]
    rfl

/-- **C61** (partial): wherever the client is stopped while it records a key, the lookups of all other hosts are unchanged, and an entry for this host which was there
stays. The new host is afterwards absent or has its key, except if the crash comes between the third and the fourth write, see
`c61_crash_blocks_host`. -/
theorem c61_crash_partial (point : Bytes → Bool) (f e k : Bytes) (n : Nat) (hf : f.getLast? ≠ some 13) (he : HostName e)
    (hk : k.length = 32) (hp : point k = true) :
    (∀ e', e' ≠ e → getKnownHost point (crashedAppend f e k n) e' = getKnownHost point f e') ∧
    (getKnownHost point f e ≠ .absent → getKnownHost point (crashedAppend f e k n) e = getKnownHost point f e) ∧
    (getKnownHost point f e = .absent → n ≠ 3 →
      getKnownHost point (crashedAppend f e k n) e = .absent ∨ getKnownHost point (crashedAppend f e k n) e = .found k) := by
  have hutf : ∀ t, utf8Valid t = true → utf8Valid (e ++ 32 :: t) = true := by
    intro t ht
    rw [utf8Valid_append he.utf8]
    have : utf8Valid ([32] ++ t) = true := by rw [utf8Valid_append (utf8Valid_ascii (by decide))]; exact ht
    exact this
  have hnl : ∀ t, (10 : UInt8) ∉ t → (10 : UInt8) ∉ e ++ 32 :: t := by
    intro t ht hc
    rcases List.mem_append.mp hc with hc | hc
    · exact he.noNewline hc
    · rcases List.mem_cons.mp hc with hc | hc
      · cases hc
      · exact ht hc
  have hkn : (10 : UInt8) ∉ encodeKey k := by
    intro hc
    have := (encodeKey_printable k 10 hc).1.1
    simp at this
  -- a last line `t`
  have key : ∀ t, (10 : UInt8) ∉ t → utf8Valid t = true → crashedAppend f e k n = f ++ 10 :: t → (∀ e', e' ≠ e → knownGo point e' [t] = .absent) →
      (n ≠ 3 → knownGo point e [t] = .absent ∨ knownGo point e [t] = .found k) →
      (∀ e', e' ≠ e → getKnownHost point (crashedAppend f e k n) e' = getKnownHost point f e') ∧
      (getKnownHost point f e ≠ .absent → getKnownHost point (crashedAppend f e k n) e = getKnownHost point f e) ∧
      (getKnownHost point f e = .absent → n ≠ 3 →
        getKnownHost point (crashedAppend f e k n) e = .absent ∨ getKnownHost point (crashedAppend f e k n) e = .found k) := by
    intro t h1 h2 h3 h4 h5
    rw [h3]
    refine ⟨fun e' hne => ?_, fun ha => ?_, fun ha hn => ?_⟩
    · rw [lookup_tail point f t e' hf h1 h2, h4 e' hne]
      cases getKnownHost point f e' <;> rfl
    · rw [lookup_tail point f t e hf h1 h2]
      cases hg : getKnownHost point f e <;> simp_all
    · rw [lookup_tail point f t e hf h1 h2, ha]
      exact h5 hn
  match n with
  | 0 =>
    have : crashedAppend f e k 0 = f := by simp [crashedAppend, appendWrites]
    rw [this]
    exact ⟨fun _ _ => rfl, fun _ => rfl, fun h _ => .inl h⟩
  | 1 => exact key [] (by simp) rfl (by simp [crashedAppend, appendWrites]) (fun e' _ => lookup_word point [] e' (by simp)) fun _ => .inl (lookup_word point [] e (by simp))
  | 2 => exact key e he.noNewline he.utf8 (by simp [crashedAppend, appendWrites]) (fun e' _ => lookup_word point e e' he.noSpace) fun _ => .inl (lookup_word point e e he.noSpace)
  | 3 => exact key (e ++ 32 :: []) (hnl [] (by simp)) (hutf [] rfl) (by simp [crashedAppend, appendWrites]) (fun e' hne => lookup_entry point e e' _ he.noSpace hne) fun h => absurd rfl h
  | 4 =>
    refine key (e ++ 32 :: encodeKey k) (hnl _ hkn) (hutf _ (utf8Valid_encodeKey k)) (by simp [crashedAppend, appendWrites])
      (fun e' hne => lookup_entry point e e' _ he.noSpace hne) fun _ => ?_
    rw [knownGo, splitOnce_append _ _ he.noSpace]
    split
    · exact .inl rfl
    · simp only [if_true, c33_round_trip.2.2.1 point k hk hp]
      exact .inr trivial
  | n + 5 =>
    have : crashedAppend f e k (n + 5) = appendKnownHost f e k := by
      rw [← crashedAppend_all]
      simp [crashedAppend, appendWrites]
    rw [this]
    obtain ⟨h1, h2, h3⟩ := c34_known_hosts point f e k hf he hk hp
    exact ⟨h3, h2, fun ha _ => .inr (h1 ha)⟩

/-- The key of 32 zeros. -/
def zeroKey : Bytes := List.replicate 32 0

/-- **C61**, finding: a client stopped between the third and fourth write leaves `host ` without key. An empty text is decoded as the key of zeros (C33), a valid
point of the curve (`hz`); so from then on every run, after whatever runs in between, uses this key, which no server has, and never learns the real one. -/
theorem c61_crash_blocks_host (point : Bytes → Bool) (f e k : Bytes) (hf : f.getLast? ≠ some 13) (he : HostName e) (hne : e ≠ [])
    (hprint : ∃ c ∈ e, printable c) (hnew : getKnownHost point f e = .absent) (hz : point zeroKey = true)
    (xs : List Visit) (hxs : ∀ x ∈ xs, Proper point x) (x : Visit) (hx : x.endpoint = e) (hs : x.serverKey = none) :
    configuredKey point (visits point (some (crashedAppend f e k 3)) xs) x = some (some zeroKey) := by
  have hfile : crashedAppend f e k 3 = f ++ 10 :: (e ++ [32]) := by simp [crashedAppend, appendWrites]
  refine c60_pinned point _ e zeroKey ?_ ?_ xs hxs x hx hs
  · rw [hfile]
    have : f ++ 10 :: (e ++ [32]) = (f ++ 10 :: e) ++ [32] := by simp
    rw [this, List.getLast?_concat]
    decide
  · obtain ⟨c, hc, hcp⟩ := hprint
    rw [hfile, lookup_tail point f _ e hf, hnew]
    · have hskip : skipLine (e ++ [32]) = false := by
        refine skipLine_printable _ c (by simp [hc]) hcp ?_
        cases e with
        | nil => exact absurd rfl hne
        | cons y e => exact he.noComment
      have hdec : decodeVerifyingKey point [] = some zeroKey := by
        unfold decodeVerifyingKey
        have : keyBuffer [] = some (List.replicate 88 0) := by decide
        rw [this]
        have h2 : (List.replicate 88 (0 : UInt8)).take 32 = zeroKey := by decide
        simp only [Option.bind_eq_bind, Option.bind_some, h2, hz, if_true]
        rfl
      rw [knownGo, if_neg (by simp [hskip]), splitOnce_append _ _ he.noSpace]
      simp only [if_true, hdec]
    · intro h
      rcases List.mem_append.mp h with h | h
      · exact he.noNewline h
      · simp at h
    · rw [utf8Valid_append he.utf8]; rfl

/-- Specification: `s` contains the writes of `a` and of `b`, each in its order. -/
inductive Spec.Interleaved : List Bytes → List Bytes → List Bytes → Prop
  | nil : Interleaved [] [] []
  | left (x : Bytes) (a b s : List Bytes) : Interleaved a b s → Interleaved (x :: a) b (x :: s)
  | right (x : Bytes) (a b s : List Bytes) : Interleaved a b s → Interleaved a (x :: b) (x :: s)

theorem lookup_line_end (point : Bytes → Bool) (f r e k : Bytes) (h : getKnownHost point (f ++ [10]) e = .found k) : getKnownHost point (f ++ 10 :: r) e = .found k := by
  unfold getKnownHost lines rawLines at *
  rw [rawLinesGo_append] at h ⊢
  rw [show stripCr (restGo [] f) :: rawLinesGo [] r = [stripCr (restGo [] f)] ++ rawLinesGo [] r from rfl, ← List.append_assoc, List.filter_append, knownGo_append]
  have : rawLinesGo [] [] = [] := rfl
  rw [this] at h
  rw [h]

/-- **C61**, finding: two clients which record the keys of two servers at the same time can pin the second host to the key of the first server, though both
appends are made completely. -/
theorem c61_concurrent_appends_mix (point : Bytes → Bool) (f a b ka kb : Bytes) (hf : f.getLast? ≠ some 13) (ha : HostName a) (hb : HostName b) (hab : b ≠ a)
    (hka : ka.length = 32) (hpa : point ka = true) (hnew : getKnownHost point f b = .absent) :
    ∃ s, Interleaved (appendWrites a ka) (appendWrites b kb) s ∧ getKnownHost point (f ++ s.flatten) b = .found ka := by
  refine ⟨[[10], a, [32], [10], b, [32], encodeKey ka, [10], encodeKey kb, [10]], ?_, ?_⟩
  · unfold appendWrites
    exact .left _ _ _ _ (.left _ _ _ _ (.left _ _ _ _ (.right _ _ _ _ (.right _ _ _ _ (.right _ _ _ _ (.left _ _ _ _ (.left _ _ _ _ (.right _ _ _ _ (.right _ _ _ _ .nil)))))))))
  · have hg : getKnownHost point (crashedAppend f a ka 3) b = .absent := by
      rw [(c61_crash_partial point f a ka 3 hf ha hka hpa).1 b hab, hnew]
    have hlast : (crashedAppend f a ka 3).getLast? ≠ some 13 := by
      have : crashedAppend f a ka 3 = (f ++ 10 :: a) ++ [32] := by simp [crashedAppend, appendWrites]
      rw [this, List.getLast?_concat]
      decide
    have h1 := (c34_known_hosts point (crashedAppend f a ka 3) b ka hlast hb hka hpa).1 hg
    have e1 : appendKnownHost (crashedAppend f a ka 3) b ka = (crashedAppend f a ka 3 ++ 10 :: b ++ 32 :: encodeKey ka) ++ [10] := by simp [appendKnownHost]
    rw [e1] at h1
    have h2 := lookup_line_end point _ (encodeKey kb ++ [10]) b ka h1
    have e2 : f ++ ([[10], a, [32], [10], b, [32], encodeKey ka, [10], encodeKey kb, [10]] : List Bytes).flatten =
        (crashedAppend f a ka 3 ++ 10 :: b ++ 32 :: encodeKey ka) ++ 10 :: (encodeKey kb ++ [10]) := by simp [crashedAppend, appendWrites]
    rw [e2]
    exact h2

/-! ### Examples -/

theorem hostName_of {e : Bytes} (h : ∀ c ∈ e, 36 ≤ c.toNat ∧ c.toNat < 127) : HostName e := by
  refine ⟨utf8Valid_ascii fun c hc => by have := h c hc; omega, fun hc => ?_, fun hc => ?_, fun hc => ?_⟩
  · have := h _ hc; simp at this
  · have := h _ hc; simp at this
  · have := h _ (List.mem_of_mem_head? hc); simp at this

/-- `server:69` is visited for the first time and has the key of thirty-two ones; then another host with another key, and the first with a third key. -/
example :
    let one : Bytes := List.replicate 32 1
    let two : Bytes := List.replicate 32 2
    let a : Visit := ⟨ascii "server:69", none, some (some one)⟩
    let b : Visit := ⟨ascii "other", none, some (some two)⟩
    let c : Visit := ⟨ascii "server:69", none, some (some two)⟩
    configuredKey (fun _ => true) (some []) a = some none ∧
    configuredKey (fun _ => true) (visits (fun _ => true) (some []) (a :: [b, c])) c = some (some one) := by
  intro one two a b c
  have ha : Proper (fun _ => true) a := ⟨hostName_of (by decide), fun k hk => by cases hk; decide⟩
  have hb : Proper (fun _ => true) b := ⟨hostName_of (by decide), fun k hk => by cases hk; decide⟩
  have hc : Proper (fun _ => true) c := ⟨hostName_of (by decide), fun k hk => by cases hk; decide⟩
  exact c60_first_use (fun _ => true) [] one (by simp) a ha rfl rfl rfl [b, c] (by simp [hb, hc]) c rfl rfl

/-- A crash while `h` is recorded: the host is pinned to the key of zeros, also after a later run. -/
example : configuredKey (fun _ => true) (visits (fun _ => true) (some (crashedAppend [] (ascii "h") (List.replicate 32 1) 3)) []) ⟨ascii "h", none, none⟩ = some (some zeroKey) :=
  c61_crash_blocks_host (fun _ => true) [] (ascii "h") _ (by simp) (hostName_of (by decide)) (by decide) ⟨104, by decide, by unfold printable; decide⟩ rfl rfl [] (by simp) _ rfl rfl

/-- `b` gets the key of `a`. -/
example : ∃ s, Interleaved (appendWrites (ascii "a") (List.replicate 32 1)) (appendWrites (ascii "b") (List.replicate 32 2)) s ∧
    getKnownHost (fun _ => true) ([] ++ s.flatten) (ascii "b") = .found (List.replicate 32 1) :=
  c61_concurrent_appends_mix (fun _ => true) [] _ _ _ _ (by simp) (hostName_of (by decide)) (hostName_of (by decide)) (by decide) (by decide) rfl rfl

end Tftp

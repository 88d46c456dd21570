import Verif.SizesRun
import Verif.ClientSecure
import Verif.ToyClient
/-
C28 for the client, over whole runs.
-/
namespace Tftp

/-- What the configuration sends fits the room, or exceeds it by at most `x` bytes. -/
def Cfg.Fine (c : Cfg) (room x : Nat) : Prop :=
  ∀ (n : Nat) (p : Packet) (d : Bytes), c.codec.enc n p.toBytes = some d → p.Sized c.bs → d.length ≤ room + x

/-- Levels at which nothing is encrypted. -/
def Level.Weak (l : Level) : Prop := l = .none ∨ l = .optionalData ∨ l = .optionalProtocol

theorem sized_plain {o : Opts} {p : Packet} (hb : 512 ≤ o.blockSize) (hp : p.Sized o.payload) : p.toBytes.length ≤ o.blockSize + 4 := by
  have : o.payload ≤ o.blockSize := by unfold Opts.payload; split <;> omega
  rcases hp with ⟨b, x, rfl, hx⟩ | ⟨-, h⟩
  · have : (Packet.data b x).toBytes.length = x.length + 4 := by simp [Packet.toBytes, be16]
    omega
  · omega

theorem cfgOf_fine {S} (v : Cli S) (k : Sock) (o : Opts) (hb : 512 ≤ o.blockSize)
    (h : k.enc = none ∨ k.level.Weak ∨ k.level = o.level) : (v.cfgOf k o).Fine (recvBuffer o.blockSize) 0 := by
  intro n p d hd hp
  have hp : p.Sized o.payload := hp
  have hr : o.blockSize + 4 ≤ recvBuffer o.blockSize := by unfold recvBuffer; omega
  have hpl := sized_plain hb hp
  unfold Cli.cfgOf at hd
  simp only at hd
  cases hk : k.enc with
  | none =>
    rw [hk] at hd
    simp only [Codec.plain, Option.some.injEq] at hd
    subst hd
    omega
  | some A =>
    rw [hk] at hd
    simp only [Codec.level] at hd
    split at hd
    · rename_i x hx
      simp only [Option.some.injEq] at hd
      subst hd
      rcases h with h | h | h
      · rw [hk] at h; cases h
      · have : protect A k.level (o.payload + 4) (v.nonce n) p.toBytes = .ok p.toBytes := by
          rcases h with h | h | h <;> rw [h] <;> rfl
        rw [this] at hx
        cases hx
        omega
      · rw [h] at hx
        exact (c28_datagram_size A o hb _ (v.nonce_length _) p x hp hx).2.1
    · cases hd

theorem cfgOf_full {S} (v : Cli S) (k : Sock) (o : Opts) (hk : k.level = .full) :
    (v.cfgOf k o).Fine (recvBuffer o.blockSize) 41 := by
  intro n p d hd hp
  unfold Cli.cfgOf at hd
  simp only at hd
  have hr : o.blockSize + 4 ≤ recvBuffer o.blockSize := by unfold recvBuffer; omega
  have hr2 : 516 ≤ recvBuffer o.blockSize := by unfold recvBuffer; omega
  have hpay : o.payload ≤ o.blockSize := by unfold Opts.payload; split <;> omega
  cases he : k.enc with
  | none =>
    rw [he] at hd
    simp only [Codec.plain, Option.some.injEq] at hd
    subst hd
    rcases hp with ⟨b, x, rfl, hx⟩ | ⟨-, h⟩
    · have : (Packet.data b x).toBytes.length = x.length + 4 := by simp [Packet.toBytes, be16]
      have hx : x.length ≤ o.payload := hx
      omega
    · omega
  | some A =>
    rw [he, hk] at hd
    simp only [Codec.level] at hd
    split at hd
    · rename_i x hx
      simp only [Option.some.injEq] at hd
      subst hd
      have := sealPacket_length (v.nonce_length _) (show sealPacket A (v.nonce n) p.toBytes (o.payload + 4) = .ok x from hx)
      omega
    · cases hd

/-! ### The options a client accepts -/

/-- The outcome of an option acknowledgement, as far as protection and sizes go. -/
theorem oack_levels {S : SigScheme} {hasKey : Bool} {known : Option Bytes} {used : Exts} {o : Opts} {se : Exts} {o' : Opts}
    {rk : Option RemoteKeys} {sent : List Packet} (h : cliOack S hasKey known used o se = (.ok (o', rk), sent)) :
    512 ≤ o'.blockSize ∧ o'.blockSize ≤ max o.blockSize 512 ∧
    ((o.level.Weak ∧ o'.level = .none) ∨
     (∃ l, (se .encryptionLevel).bind Level.parse = some l ∧ o'.level = l ∧ rk.isSome = true ∧ (o.level = .data ∨ o.level = .protocol → l = .data ∨ l = .protocol))) := by
  have hlim := (c17_client_limits S hasKey known used o se o' rk sent h).2.1
  refine ⟨by omega, by omega, ?_⟩
  unfold cliOack at h
  split at h
  · split at h
    · cases h
    · rename_i o1 rk1 hp
      have : o1 = o' ∧ rk1 = rk := by
        split at h
        · cases h
        · simp only [Prod.mk.injEq, Except.ok.injEq] at h; exact h.1
      obtain ⟨rfl, rfl⟩ := this
      unfold cliParse at hp
      split at hp
      · cases hp
      · rename_i o2 h2
        have hlv := cliNumbers_level h2
        split at hp
        · rename_i hn
          cases hp
          exact .inl ⟨.inl (by rw [← hlv]; exact hn), hn⟩
        · split at hp
          · cases hp
          · rename_i reply hreply
            split at hp
            · rename_i hc
              cases hp
              rw [hlv] at hc
              exact .inl ⟨.inr hc.2, rfl⟩
            · split at hp
              · cases hp
              · rename_i hreq
                cases reply with
                | none => cases hp
                | some l =>
                  simp only at hp
                  split at hp
                  · cases hp
                  · cases hp
                  · split at hp
                    · cases hp
                    · cases hp
                      refine .inr ⟨l, ?_, rfl, rfl, ?_⟩
                      · unfold optParse at hreply
                        cases hx : se .encryptionLevel with
                        | none => rw [hx] at hreply; cases hreply
                        | some t =>
                          rw [hx] at hreply
                          simp only at hreply
                          cases ht : Level.parse t with
                          | none => rw [ht] at hreply; cases hreply
                          | some l' => rw [ht] at hreply; cases hreply; simp [ht]
                      · intro hd
                        rw [hlv] at hreq
                        have := Classical.not_not.mp (fun hn => hreq ⟨hd, hn⟩)
                        simpa using this
  · cases h

/-- Specification: a server which has been asked in a fully sealed request does not confirm a level without encryption (its option
acknowledgements, as far as the client can read them, name the level data, protocol or full, or none at all). -/
def Spec.KeepsSealed {S} (v : Cli S) (j : Job) (i : CliIn) : Prop :=
  (v.requestOpts j).level = .full → ∀ src d n b se l, i.recv = .dgram src d → (v.initialSock j.opts).1.recv (d.take n) = some b →
    Packet.fromBytes b = .ok (.optionalAck se) → (se .encryptionLevel).bind Level.parse = some l → l = .data ∨ l = .protocol ∨ l = .full

theorem requestOpts_sock {S} (v : Cli S) (j : Job) : (v.requestOpts j).level = (v.initialSock j.opts).2.level := by
  unfold Cli.requestOpts
  simp only
  split
  · split <;> rfl
  · rfl

/-- The level of the first socket. -/
theorem initialSock_level {S} (v : Cli S) (j : Job) :
    (v.initialSock j.opts).1.enc = none ∨
    ((v.initialSock j.opts).1.level = (v.requestOpts j).level ∧ (v.requestOpts j).level ≠ .protocol ∧ j.opts.level ≠ .none) := by
  rw [requestOpts_sock]
  unfold Cli.initialSock
  split
  · exact .inl rfl
  · rename_i hn
    split
    · exact .inl rfl
    · right
      simp only
      split
      · exact ⟨trivial, by simp, hn⟩
      · rename_i h; exact ⟨trivial, h, hn⟩

theorem configure_enc {S} (v : Cli S) (k : Sock) (b : Bool) (o : Opts) (rk : Option RemoteKeys) :
    ((v.configure k b o rk).enc = k.enc ∧ (v.configure k b o rk).level = k.level ∧
      ¬ (b = true ∧ rk.isSome = true ∧ (o.level = .protocol ∨ o.level = .data ∨ o.level = .full))) ∨ (v.configure k b o rk).level = o.level := by
  unfold Cli.configure
  split
  · simp only
    split
    · exact .inr rfl
    · rename_i h; exact .inl ⟨rfl, rfl, fun hc => h hc.2.2⟩
  · rename_i h
    refine .inl ⟨rfl, rfl, fun hc => ?_⟩
    obtain ⟨h1, h2, -⟩ := hc
    subst h1
    cases rk with
    | none => cases h2
    | some r => exact h r rfl rfl

/-- What an accepted reply means for the sizes. -/
theorem accept_fine {S} (v : Cli S) (j : Job) {used : Exts} {initial : Bool} {b : Bytes} {ack : Bool} {o : Opts} {rk : Option RemoteKeys}
    {first : Option Bytes} (h : v.reply j.write (v.requestOpts j) used initial b = .accept ack o rk first) :
    512 ≤ o.blockSize ∧ o.blockSize ≤ max (v.requestOpts j).blockSize 512 ∧
    (v.cfgOf (v.configure (v.initialSock j.opts).1 (j.opts.level ≠ .none) o rk) o).Fine (recvBuffer o.blockSize) 41 ∧
    (((v.requestOpts j).level = .full → ∀ se l, Packet.fromBytes b = .ok (.optionalAck se) → (se .encryptionLevel).bind Level.parse = some l →
        l = .data ∨ l = .protocol ∨ l = .full) →
      (v.cfgOf (v.configure (v.initialSock j.opts).1 (j.opts.level ≠ .none) o rk) o).Fine (recvBuffer o.blockSize) 0) := by
  generalize hk : v.configure (v.initialSock j.opts).1 (j.opts.level ≠ .none) o rk = k
  have up : ∀ {c : Cfg} {room : Nat}, c.Fine room 0 → c.Fine room 41 := fun h n p d h1 h2 => by have := h n p d h1 h2; omega
  have hcfg := configure_enc v (v.initialSock j.opts).1 (j.opts.level ≠ .none) o rk
  rw [hk] at hcfg
  have good : 512 ≤ o.blockSize → (k.enc = none ∨ k.level.Weak ∨ k.level = o.level) →
      (v.cfgOf k o).Fine (recvBuffer o.blockSize) 41 ∧ (v.cfgOf k o).Fine (recvBuffer o.blockSize) 0 :=
    fun hb h => ⟨up (cfgOf_fine v k o hb h), cfgOf_fine v k o hb h⟩
  -- the server did not acknowledge options
  have plain : o = cliPlain (v.requestOpts j) → rk = none → 512 ≤ o.blockSize ∧ o.blockSize ≤ max (v.requestOpts j).blockSize 512 ∧
      (v.cfgOf k o).Fine (recvBuffer o.blockSize) 41 ∧ (v.cfgOf k o).Fine (recvBuffer o.blockSize) 0 := by
    intro ho hr
    have hbs : o.blockSize = 512 := by rw [ho]; rfl
    refine ⟨by omega, by omega, good (by omega) ?_⟩
    have hlv : o.level = (v.requestOpts j).level := by rw [ho]; rfl
    rcases hcfg with ⟨h1, h2, -⟩ | h
    · rcases initialSock_level v j with h | ⟨h, -⟩
      · exact .inl (h1.trans h)
      · exact .inr (.inr (by rw [h2, h, hlv]))
    · exact .inr (.inr h)
  unfold Cli.reply at h
  split at h
  · rename_i se hse
    split at h
    · rename_i o' rk' out hc
      cases h
      obtain ⟨h1, h2, h3⟩ := oack_levels hc
      refine ⟨h1, h2, ?_⟩
      by_cases hgood : k.enc = none ∨ k.level.Weak ∨ k.level = o.level
      · exact ⟨(good h1 hgood).1, fun _ => (good h1 hgood).2⟩
      · -- only a fully sealed handshake whose encryption is not replaced
        rcases hcfg with ⟨he, hl, hno⟩ | h
        · rcases initialSock_level v j with h | ⟨h, hnp, hkeys⟩
          · exact absurd (.inl (he.trans h)) hgood
          · rcases h3 with ⟨hw, -⟩ | ⟨l, hl1, hl2, hrk, hl4⟩
            · exact absurd (.inr (.inl (by rw [hl, h]; exact hw))) hgood
            · have hnot : ¬ (l = .protocol ∨ l = .data ∨ l = .full) := fun hc => hno ⟨by simpa using hkeys, hrk, by rw [hl2]; exact hc⟩
              have hfull : (v.requestOpts j).level = .full := by
                cases hlev : (v.requestOpts j).level with
                | full => rfl
                | protocol => exact absurd hlev hnp
                | data =>
                  rcases hl4 (.inl hlev) with h | h
                  · exact absurd (.inr (.inl h)) hnot
                  · exact absurd (.inl h) hnot
                | none => exact absurd (.inr (.inl (by rw [hl, h, hlev]; exact .inl rfl))) hgood
                | optionalData => exact absurd (.inr (.inl (by rw [hl, h, hlev]; exact .inr (.inl rfl)))) hgood
                | optionalProtocol => exact absurd (.inr (.inl (by rw [hl, h, hlev]; exact .inr (.inr rfl)))) hgood
              refine ⟨cfgOf_full v k o (by rw [hl, h, hfull]), fun hs => ?_⟩
              rcases hs hfull se l hse hl1 with h | h | h
              · exact absurd (.inr (.inl h)) hnot
              · exact absurd (.inl h) hnot
              · exact absurd (.inr (.inr h)) hnot
        · exact absurd (.inr (.inr h)) hgood
    · cases h
  · split at h
    · cases h
      obtain ⟨h1, h2, h3, h4⟩ := plain rfl rfl
      exact ⟨h1, h2, h3, fun _ => h4⟩
    · cases h
  · split at h
    · cases h
    · cases h
      obtain ⟨h1, h2, h3, h4⟩ := plain rfl rfl
      exact ⟨h1, h2, h3, fun _ => h4⟩
  · split at h <;> cases h
  · cases h

/-! ### Steps of the client -/

theorem emit_fine {c : Cfg} {room x n : Nat} {t : Option Nat} {p : Packet} {d : Dgram} (h : c.Fine room x) (hd : c.emit n t p = some d)
    (hp : p.Sized c.bs) : d.bytes.length ≤ room + x := h n p _ (emit_enc hd) hp

theorem tooLarge_fine {c : Cfg} {room x : Nat} (h : c.Fine room x) (n : Nat) (ok : Bool) : ∀ d ∈ c.tooLarge n ok, d.length ≤ room + x := by
  intro d hd
  unfold Cfg.tooLarge at hd
  split at hd
  · simp only [Option.mem_toList, Option.map_eq_some_iff] at hd
    obtain ⟨g, h1, rfl⟩ := hd
    exact emit_fine h h1 (sized_error _ _)
  · cases hd

theorem firstData_fine {c : Cfg} {room x : Nat} (h : c.Fine room x) (s : RecvSt) (b : Bytes) (io : WriteIo) (ok : Bool) (n : Nat) :
    ∀ d ∈ (firstData c s b io ok n).2.1, d.length ≤ room + x := by
  intro d hd
  unfold firstData at hd
  split at hd
  · split at hd
    · exact tooLarge_fine h n ok d hd
    · simp only at hd
      split at hd
      · cases hd
      · split at hd
        · split at hd
          · rename_i g hg
            have : d ∈ [g.bytes] := by split at hd <;> exact hd
            simp only [List.mem_singleton] at this
            subst this
            exact emit_fine h hg (sized_ack _ _)
          · cases hd
        · split at hd <;> cases hd
  · cases hd

/-- Sizes in the states of the transfer. -/
def CliSt.Sized (x limit : Nat) : CliSt → Prop
  | .up c room _ s _ _ => c.Fine room x ∧ s.reader.Short c.bs ∧ room ≤ limit
  | .down c room _ _ _ _ => c.Fine room x ∧ room ≤ limit
  | _ => True

/-- Specification: sizes of what the client sends in a step. In the handshake everything after the request itself (the client's answer to
the acceptance), and then everything, fits the room that the agreed block size gives, or exceeds it by at most `x` bytes. -/
def Spec.ClientSized (x : Nat) (before after : CliSt) (out : List (Ep × Bytes)) : Prop :=
  match before, after with
  | .query _, .up _ room _ _ _ _ | .query _, .down _ room _ _ _ _ => ∀ d ∈ out.drop 1, d.2.length ≤ room + x
  | .query _, _ => True
  | .up _ room _ _ _ _, _ | .down _ room _ _ _ _, _ => ∀ d ∈ out, d.2.length ≤ room + x
  | .done _ _, _ => out = []

theorem accepted_sized {S} (v : Cli S) (j : Job) (ep : Ep) (ack : Bool) (o : Opts) (rk : Option RemoteKeys) (first : Option Bytes) (i : CliIn)
    (x limit : Nat) (hr : recvBuffer o.blockSize ≤ limit)
    (h : (v.cfgOf (v.configure (v.initialSock j.opts).1 (j.opts.level ≠ .none) o rk) o).Fine (recvBuffer o.blockSize) x) :
    (v.accepted j ep ack o rk first i).1.Sized x limit ∧
    (match (v.accepted j ep ack o rk first i).1 with
    | .up _ room _ _ _ _ | .down _ room _ _ _ _ => ∀ d ∈ (v.accepted j ep ack o rk first i).2, d.length ≤ room + x
    | _ => True) := by
  unfold Cli.accepted
  simp only
  generalize hc : v.cfgOf (v.configure (v.initialSock j.opts).1 (j.opts.level ≠ .none) o rk) o = c at *
  have hbs : c.bs = o.payload := by rw [← hc]; rfl
  have hack : ∀ out : List Bytes, (if ack then (if i.sendOk then (c.emit i.nonce2 (some 0) (.ack 0)).map fun d => [d.bytes] else none) else some []) = some out →
      ∀ d ∈ out, d.length ≤ recvBuffer o.blockSize + x := by
    intro out ho d hd
    split at ho
    · split at ho
      · simp only [Option.map_eq_some_iff] at ho
        obtain ⟨g, h1, rfl⟩ := ho
        simp only [List.mem_singleton] at hd
        subst hd
        exact emit_fine h h1 (sized_ack _ _)
      · cases ho
    · cases ho; cases hd
  generalize hhs : (if ack then (if i.sendOk then (c.emit i.nonce2 (some 0) (.ack 0)).map fun d => [d.bytes] else none) else some []) = hs at *
  cases j.task with
  | upload sz file =>
    simp only
    cases hs with
    | none => exact ⟨trivial, trivial⟩
    | some out =>
      refine ⟨⟨h, ?_, hr⟩, hack out rfl⟩
      rw [hbs]
      exact short_new _ _ _ _
  | download ok =>
    simp only
    by_cases hok : ok = true
    · simp only [hok, not_true_eq_false, ↓reduceIte]
      have fin : ∀ (s : RecvSt) (out : List Bytes) , (∀ d ∈ out, d.length ≤ recvBuffer o.blockSize + x) →
          ∀ y, y = (if o.fileSize.getD 0 > v.cfg.maxFileSize then (CliSt.done (.error .invalid) s.w.out, out ++ c.tooLarge i.nonce2 i.sendOk)
            else match hs with
              | none => (CliSt.done (.error .io) s.w.out, out)
              | some a => (CliSt.down c (recvBuffer o.blockSize) ep s i.t (rk.bind (·.auth)), out ++ a)) →
          y.1.Sized x limit ∧ (match y.1 with
            | .up _ room _ _ _ _ | .down _ room _ _ _ _ => ∀ d ∈ y.2, d.length ≤ room + x
            | _ => True) := by
        intro s out hfd y hy
        subst hy
        split
        · exact ⟨trivial, trivial⟩
        · cases hs with
          | none => exact ⟨trivial, trivial⟩
          | some a =>
            refine ⟨⟨h, hr⟩, fun d hd => ?_⟩
            rcases List.mem_append.mp hd with hd | hd
            · exact hfd d hd
            · exact hack a rfl d hd
      cases first with
      | none => exact fin ⟨Writer.new, 0, 0, false, false⟩ [] (fun d hd => nomatch hd) _ rfl
      | some b =>
        simp only
        have hfd := firstData_fine h ⟨Writer.new, 0, 0, false, false⟩ b i.file i.sendOk i.nonce2
        generalize firstData c ⟨Writer.new, 0, 0, false, false⟩ b i.file i.sendOk i.nonce2 = f at *
        obtain ⟨f1, f2, f3⟩ := f
        cases f3 with
        | some r => exact ⟨trivial, trivial⟩
        | none => exact fin f1 f2 hfd _ rfl
    · simp only [hok, not_false_eq_true, ↓reduceIte, Bool.false_eq_true]
      exact ⟨trivial, trivial⟩

/-- The largest room a transfer can have. -/
theorem step_sized {S} (v : Cli S) (j : Job) (x : Nat) (s : CliSt) (i : CliIn) (hs : s.Sized x (recvBuffer (v.requestOpts j).blockSize))
    (hx : x = 41 ∨ x = 0 ∧ Spec.KeepsSealed v j i) :
    (v.step j s i).1.Sized x (recvBuffer (v.requestOpts j).blockSize) ∧ Spec.ClientSized x s (v.step j s i).1 (v.step j s i).2 := by
  cases s with
  | done r f => exact ⟨trivial, rfl⟩
  | query q =>
    simp only [Cli.step]
    have triv : ∀ (y : CliSt) (out : List (Ep × Bytes)), (∀ q', y = .query q' → True) → (match y with | .up .. | .down .. => False | _ => True) →
        y.Sized x (recvBuffer (v.requestOpts j).blockSize) ∧ Spec.ClientSized x (.query q) y out := by
      intro y out _ hy
      cases y <;> first | exact ⟨trivial, trivial⟩ | cases hy
    unfold Cli.queryStep
    simp only
    split
    · exact triv _ _ (fun _ _ => trivial) trivial
    · rename_i req hreq
      split
      · exact triv _ _ (fun _ _ => trivial) trivial
      · split <;> exact triv _ _ (fun _ _ => trivial) trivial
      · rename_i src d hrecv
        split
        · exact triv _ _ (fun _ _ => trivial) trivial
        · rename_i b hb
          split
          · exact triv _ _ (fun _ _ => trivial) trivial
          · split
            · exact triv _ _ (fun _ _ => trivial) trivial
            · split
              · exact triv _ _ (fun _ _ => trivial) trivial
              · exact triv _ _ (fun _ _ => trivial) trivial
              · rename_i ack o' rk first hacc
                obtain ⟨h1, h2, h3, h4⟩ := accept_fine v j hacc
                have hroom : recvBuffer o'.blockSize ≤ recvBuffer (v.requestOpts j).blockSize := by unfold recvBuffer; omega
                have hfine : (v.cfgOf (v.configure (v.initialSock j.opts).1 (j.opts.level ≠ .none) o' rk) o').Fine (recvBuffer o'.blockSize) x := by
                  rcases hx with rfl | ⟨rfl, hk⟩
                  · exact h3
                  · exact h4 fun hfull se l hse hl => hk hfull src d q.room b se l hrecv hb hse hl
                obtain ⟨h5, h6⟩ := accepted_sized v j src ack o' rk first i x _ hroom hfine
                refine ⟨h5, ?_⟩
                generalize v.accepted j src ack o' rk first i = y at *
                obtain ⟨y1, y2⟩ := y
                cases y1 with
                | up c room ep s since auth =>
                  intro e he
                  simp only [List.cons_append, List.nil_append, List.drop_succ_cons, List.drop_zero, List.mem_map] at he
                  obtain ⟨z, hz, rfl⟩ := he
                  exact h6 z hz
                | down c room ep s since auth =>
                  intro e he
                  simp only [List.cons_append, List.nil_append, List.drop_succ_cons, List.drop_zero, List.mem_map] at he
                  obtain ⟨z, hz, rfl⟩ := he
                  exact h6 z hz
                | query _ => trivial
                | done _ _ => trivial
  | up c room ep s since auth =>
    obtain ⟨hf, hsh, hl⟩ := hs
    have hn := short_next hsh i.retry i.fail c.cap
    have htick : (clientSendTick c s i.retry i.fail i.wb i.net i.nonce).1.reader.Short c.bs ∧
        ∀ g, (clientSendTick c s i.retry i.fail i.wb i.net i.nonce).2 = some g → g.bytes.length ≤ room + x := by
      unfold clientSendTick
      simp only
      split
      · exact ⟨hn.1, fun g hg => by cases hg⟩
      · split <;> exact ⟨hn.1, fun g hg => by cases hg⟩
      · exact ⟨hn.1, fun g hg => by cases hg⟩
      · rename_i b hb
        split
        · rename_i d hd _
          exact ⟨hn.1, fun g hg => by cases hg; exact emit_fine hf hd (sized_data (hn.2 b hb))⟩
        · exact ⟨hn.1, fun g hg => by cases hg⟩
        · exact ⟨hn.1, fun g hg => by cases hg⟩
    simp only [Cli.step]
    unfold Cli.upStep
    simp only
    generalize clientSendTick c s i.retry i.fail i.wb i.net i.nonce = y at *
    have hout : ∀ d ∈ (y.2.map (·.bytes)).toList.map (ep, ·), d.2.length ≤ room + x := by
      intro d hd
      obtain ⟨z, hz, rfl⟩ := List.mem_map.mp hd
      simp only [Option.mem_toList, Option.map_eq_some_iff] at hz
      obtain ⟨g, h1, rfl⟩ := hz
      exact htick.2 g h1
    have hfree : ∀ dg, (clientSendRecv c y.1 dg).reader.Short c.bs := by
      intro dg
      unfold clientSendRecv
      split
      · exact htick.1
      · split
        · simp only
          split <;> exact short_free htick.1 _
        · exact htick.1
        · exact htick.1
    split
    · exact ⟨trivial, hout⟩
    · split
      · exact ⟨trivial, hout⟩
      · split
        · exact ⟨trivial, hout⟩
        · exact ⟨⟨hf, htick.1, hl⟩, hout⟩
      · split
        · exact ⟨trivial, hout⟩
        · split
          · exact ⟨⟨hf, htick.1, hl⟩, hout⟩
          · split
            · exact ⟨trivial, hout⟩
            · split
              · exact ⟨trivial, hout⟩
              · exact ⟨⟨hf, hfree _, hl⟩, hout⟩
  | down c room ep s since auth =>
    obtain ⟨hf, hl⟩ := hs
    simp only [Cli.step]
    unfold Cli.downStep
    have hrecv : ∀ dg g, (clientRecv c s dg i.file i.sendOk i.nonce).2 = some g → g.bytes.length ≤ room + x := by
      intro dg g hg
      unfold clientRecv at hg
      split at hg
      · cases hg
      · split at hg
        · simp only at hg
          split at hg
          · cases hg
          · repeat' split at hg
            all_goals first
              | (cases hg; done)
              | exact emit_fine hf hg (sized_error _ _)
              | (simp only at hg; split at hg <;> first | exact emit_fine hf hg (sized_error _ _) | (cases hg; done))
              | (rename_i h1 _ _; cases hg; exact emit_fine hf h1 (sized_ack _ _))
              | (rename_i h1 _; cases hg; exact emit_fine hf h1 (sized_ack _ _))
        · cases hg
        · cases hg
    have none' : ∀ y : CliSt, Spec.ClientSized x (.down c room ep s since auth) y [] := fun y d hd => nomatch hd
    split
    · exact ⟨trivial, none' _⟩
    · split
      · exact ⟨trivial, none' _⟩
      · exact ⟨⟨hf, hl⟩, none' _⟩
    · rename_i src dg _
      simp only
      split
      · exact ⟨trivial, none' _⟩
      · split
        · exact ⟨⟨hf, hl⟩, none' _⟩
        · have hout : ∀ d ∈ ((clientRecv c s (dg.take room) i.file i.sendOk i.nonce).2.map (·.bytes)).toList.map (ep, ·), d.2.length ≤ room + x := by
            intro d hd
            obtain ⟨z, hz, rfl⟩ := List.mem_map.mp hd
            simp only [Option.mem_toList, Option.map_eq_some_iff] at hz
            obtain ⟨g, h1, rfl⟩ := hz
            exact hrecv _ g h1
          split
          · exact ⟨trivial, hout⟩
          · split
            · exact ⟨trivial, hout⟩
            · exact ⟨⟨hf, hl⟩, hout⟩

theorem run_sized {S} (v : Cli S) (j : Job) (x : Nat) (t : Nat) (past : List CliIn) (h : x = 41 ∨ x = 0 ∧ ∀ i ∈ past, Spec.KeepsSealed v j i) :
    (v.run j t past).1.Sized x (recvBuffer (v.requestOpts j).blockSize) := by
  have key : ∀ s : CliSt, s.Sized x (recvBuffer (v.requestOpts j).blockSize) → (v.runFrom j s past).1.Sized x (recvBuffer (v.requestOpts j).blockSize) := by
    induction past with
    | nil => exact fun s h => h
    | cons i r ih =>
      intro s hs
      simp only [Cli.runFrom]
      refine ih ?_ _ (step_sized v j x s i hs ?_).1
      · rcases h with h | ⟨h1, h2⟩
        · exact .inl h
        · exact .inr ⟨h1, fun i hi => h2 i (by simp [hi])⟩
      · rcases h with h | ⟨h1, h2⟩
        · exact .inl h
        · exact .inr ⟨h1, h2 i (by simp)⟩
  exact key _ trivial

/-- **C28** for the client, over whole runs: unless the server confirms "no encryption" inside a fully encrypted handshake, every
datagram the client sends once the request has been accepted fits the room which the agreed block size gives, and this is at most the room
for the block size it asked for. -/
theorem c28_client_partial {S} (v : Cli S) (j : Job) (t : Nat) (past : List CliIn) (i : CliIn) (h : ∀ k ∈ past ++ [i], Spec.KeepsSealed v j k) :
    Spec.ClientSized 0 (v.run j t past).1 (v.step j (v.run j t past).1 i).1 (v.step j (v.run j t past).1 i).2 ∧
    (∀ c room ep s since auth, (v.run j t past).1 = .up c room ep s since auth → room ≤ recvBuffer j.opts.blockSize) ∧
    (∀ c room ep s since auth, (v.run j t past).1 = .down c room ep s since auth → room ≤ recvBuffer j.opts.blockSize) := by
  have hr := run_sized v j 0 t past (.inr ⟨rfl, fun k hk => h k (by simp [hk])⟩)
  have hb : (v.requestOpts j).blockSize = j.opts.blockSize := by
    unfold Cli.requestOpts Cli.initialSock
    repeat' split
    all_goals rfl
  refine ⟨(step_sized v j 0 _ i hr (.inr ⟨rfl, h i (by simp)⟩)).2, ?_, ?_⟩
  · intro c room ep s since auth he
    rw [he, hb] at hr
    exact hr.2.2
  · intro c room ep s since auth he
    rw [he, hb] at hr
    exact hr.2

/-- **C28** for the client with any server: at most 41 bytes more. -/
theorem c28_client_any_server {S} (v : Cli S) (j : Job) (t : Nat) (past : List CliIn) (i : CliIn) :
    Spec.ClientSized 41 (v.run j t past).1 (v.step j (v.run j t past).1 i).1 (v.step j (v.run j t past).1 i).2 :=
  (step_sized v j 41 _ i (run_sized v j 41 t past (.inl rfl)) (.inl rfl)).2

/-- The condition of `c28_client_partial` holds with this server: the option acknowledgement for a request names the level data, protocol or full, or none. -/
theorem c28_server_keeps_sealed {S : SigScheme} (cfg : SrvCfg S) (session : Bytes) (handshake : Level) (ce : Exts) (kind : ReqKind) (u : Exts) (o : Opts)
    (k : Option SessionKeys) (h : srvNegotiate cfg session handshake ce kind = .ok (u, o, k)) (l : Level)
    (hl : (u .encryptionLevel).bind Level.parse = some l) : l = .data ∨ l = .protocol ∨ l = .full := by
  obtain ⟨u0, o0, hp, -, hk⟩ := srvNegotiate_ok h
  have hu : u .encryptionLevel = u0 .encryptionLevel := by
    rcases hk with ⟨_, rfl, _⟩ | ⟨a, _, rfl, _⟩
    · rfl
    · exact srvReadSize_other _ _ _ _ (by decide)
  rw [hu] at hl
  obtain ⟨u1, o1, cl, hN, _, _, hor⟩ := srvParse_ok hp
  rcases hor with ⟨_, _, rfl, _, _⟩ | ⟨m, _, auth, _, hm, _, _, _, _, rfl, _, _⟩
  · rw [hN.rest.1] at hl; cases hl
  · rw [srvKeys_other _ _ _ _ .encryptionLevel (by decide)] at hl
    simp only [Exts.insert, ↓reduceIte, Option.bind_some, levelText_parse, Option.some.injEq] at hl
    subst hl
    cases m <;> simp_all [srvLevel]

/-! ### Witnesses -/

namespace Toy

set_option maxRecDepth 8000

/-- A packet sealed with the handshake cipher. -/
def sealedReply (p : Packet) : Bytes := match sealPacket flip (List.replicate 24 0) p.toBytes 516 with
  | .ok d => d
  | _ => []

/-- **C28** fails for the client with a server which confirms the level "none" in an encrypted handshake: the client goes on sealing with
the handshake cipher but no longer leaves room for it: acknowledgement and data have 557 bytes, and the agreed block size is 512. -/
theorem c28_unsealed_level_too_long :
    (((cli (some [1])).run (up .full) 0 [hears 1 here (sealedReply (oack .none)), quiet 2]).2).map (fun x => x.2.length) = [516, 557, 557] := by
  decide +kernel

/-- **C28** fails for the client's complaint about options it did not ask for, if the handshake is encrypted: it is 41 bytes longer than the requested
block size allows. -/
theorem c28_complaint_too_long :
    (((cli (some [1])).run (up .full) 0 [hears 1 here (sealedReply (.optionalAck (Exts.empty.insert .timeout (ascii "1"))))]).2).map (fun x => x.2.length) =
      [516, 557] := by decide +kernel

/-- The condition of `c28_client_partial` is met by a normal server, and the bound attained. -/
example : Spec.KeepsSealed (cli none) (up .none) (hear 1 (.ack 0)) := fun h => by simp [requestOpts_level, cli, up] at h

example : (((cli (some [1])).run (up .full) 0 [hears 1 here (sealedReply (oack .full)), quiet 2]).2).map (fun x => x.2.length) = [516, 516, 516] := by
  decide +kernel

end Toy

end Tftp

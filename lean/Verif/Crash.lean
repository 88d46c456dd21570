import Verif.Authority
import Verif.Panics
import Verif.Toy
/-
C29 for whole servers: which datagrams end the process. The models of the servers treat the panics of C29 as refusals; here they end
the server (`Srv.stepC`), which is what a panic does in the only thread of the single threaded server, and in the main thread of
the multi threaded one.
-/
namespace Tftp

/-- src/server/connection.rs:70-106 `decrypt_packet` panics. -/
def Conn.recvPanics (c : Conn) (dg : Bytes) : Bool := match c.enc with
  | some A => match unprotect A c.opts.level dg with
    | .panic => true
    | _ => false
  | none => false

/-- Quoting the requested name in an error reply panics: src/lib.rs:55-61. -/
def quotePanics (name : Bytes) : Bool := match ensureSize name 100 with
  | .panic => true
  | _ => false

/-- The chain for a datagram from an address without connection panics: src/server/validation.rs:60-76 (the name is refused),
src/server/connection_builder.rs:162-177 and 250-264 (the file can not be opened). The text is made before `reply_with_error`
looks at `error_to_authorized_only`. -/
def Srv.newPanics {S} (v : Srv S) (t : Nat) (dg : Bytes) (io : NewIo) : Bool :=
  match v.requestOf dg, (v.newConn t dg io).result with
  | some (_, r), .error .name => quotePanics r.fileName
  | some (_, r), .error .file => quotePanics r.fileName
  | _, _ => false

/-- An event of the single threaded server panics. Other places: decoding (`c29_decode_never_panics`), opening the first packet
(`c29_open_never_panics_partial`) and sending (`c29_sending_never_panics`) never do. -/
def Srv.panics {S} (v : Srv S) (s : SrvSt) : SrvEv → Bool
  | .client _ a dg _ => match s.conn a with
    | some c => c.recvPanics dg
    | none => false
  | .main t a dg io =>
    if s.clients.any (fun x => x.1 == a) then false
    else if s.clients.length ≥ v.maxConn then false
    else v.newPanics t dg io
  | .purge _ _ => false
  | .round _ _ => false

/-- The single threaded server with its panics; `none`: the process has ended. -/
def Srv.stepC {S} (v : Srv S) (s : SrvSt) (e : SrvEv) : Option SrvSt := if v.panics s e then none else some (v.step s e).1

def Srv.runC {S} (v : Srv S) : SrvSt → List SrvEv → Option SrvSt
  | s, [] => some s
  | s, e :: es => (v.stepC s e).bind fun s' => v.runC s' es

/-! ### Specification -/

/-- Specification: a data packet of 40 to 43 bytes: too long to be refused for its length, too short to have a header besides tag
and nonce. -/
def Spec.PoisonData (dg : Bytes) : Prop := dg.take 2 = [0, 3] ∧ 40 ≤ dg.length ∧ dg.length ≤ 43

/-- Specification: byte 100 of the name exists and is not the first byte of a character. -/
def Spec.PoisonName (name : Bytes) : Prop := ∃ c, name[100]? = some c ∧ 128 ≤ c.toNat ∧ c.toNat < 192

/-! ### The places -/

theorem packetType_data_iff (dg : Bytes) : packetType dg = some .data ↔ dg.take 2 = [0, 3] := by
  constructor
  · intro h
    match dg, h with
    | [], h => cases h
    | [a], h => cases h
    | a :: b :: r, h =>
      simp only [packetType, readU16, Option.bind_some] at h
      have hn : (UInt16.ofNat (a.toNat * 256 + b.toNat)).toNat = 3 := by
        revert h
        generalize (UInt16.ofNat (a.toNat * 256 + b.toNat)).toNat = n
        intro h
        unfold PacketType.ofRepr at h
        split at h <;> first | rfl | cases h
      have ha := a.toNat_lt
      have hb := b.toNat_lt
      rw [UInt16.toNat_ofNat', Nat.mod_eq_of_lt (by omega)] at hn
      have h1 : a = 0 := UInt8.toNat_inj.mp (by simp; omega)
      have h2 : b = 3 := UInt8.toNat_inj.mp (by simp; omega)
      subst h1; subst h2; rfl
  · intro h
    match dg, h with
    | a :: b :: r, h =>
      simp only [List.take_succ_cons, List.take_zero, List.cons.injEq, and_true] at h
      obtain ⟨rfl, rfl⟩ := h
      rfl

theorem recvPanics_iff (c : Conn) (dg : Bytes) :
    c.recvPanics dg = true ↔ c.enc.isSome ∧ c.opts.level = .data ∧ Spec.PoisonData dg := by
  unfold Conn.recvPanics
  cases hA : c.enc with
  | none => simp
  | some A =>
    simp only [Option.isSome_some, true_and]
    have h : (match unprotect A c.opts.level dg with | .panic => true | _ => false) = true ↔ unprotect A c.opts.level dg = .panic := by
      cases unprotect A c.opts.level dg <;> simp
    rw [h]
    constructor
    · intro hp
      have hl : c.opts.level = .data := by
        apply Classical.byContradiction
        intro hl
        exact (c29_open_never_panics_partial A dg).1 _ hl hp
      rw [hl] at hp
      obtain ⟨h1, h2, h3⟩ := (c29_data_level_panic A dg).mp hp
      exact ⟨hl, (packetType_data_iff dg).mp h1, h2, h3⟩
    · rintro ⟨hl, h1, h2, h3⟩
      rw [hl]
      exact (c29_data_level_panic A dg).mpr ⟨(packetType_data_iff dg).mpr h1, h2, h3⟩

/-- **C29**, error replies: quoting a requested name panics exactly if byte 100 of the name is inside a character. -/
theorem c29_quote_panics_iff (name : Bytes) : ensureSize name 100 = .panic ↔ Spec.PoisonName name := by
  unfold ensureSize Spec.PoisonName charBoundary
  by_cases hl : name.length > 100
  · rw [if_pos hl, List.getElem?_eq_getElem hl]
    have hne : ((100 : Nat) == name.length) = false := by simpa using (by omega : ¬ 100 = name.length)
    simp only [hne, Bool.or_false, Option.some.injEq]
    rw [show ((100 : Nat) == 0) = false from rfl, Bool.false_or]
    constructor
    · intro h
      split at h
      · cases h
      · rename_i hc
        exact ⟨_, rfl, by simpa using hc⟩
    · rintro ⟨c, rfl, h1, h2⟩
      rw [if_neg]
      simp [h1, h2]
  · rw [if_neg hl, List.getElem?_eq_none (by omega)]
    simp

theorem quotePanics_iff (name : Bytes) : quotePanics name = true ↔ Spec.PoisonName name := by
  rw [← c29_quote_panics_iff]
  unfold quotePanics
  cases ensureSize name 100 <;> simp

/-- **C29**, sending: no packet makes the sender panic. -/
theorem c29_sending_never_panics (A : Aead) (level : Level) (size : Nat) (nonce : Bytes) (p : Packet) :
    protect A level size nonce p.toBytes ≠ .panic := by
  have key : ∀ b, sealPacket A nonce b size ≠ .panic := by
    intro b h
    unfold sealPacket at h
    split at h
    · cases h
    · simp [encrypt] at h
  intro h
  unfold protect at h
  split at h
  · exact key _ h
  · exact key _ h
  · split at h
    · rename_i ht
      unfold sealData encrypt at h
      split at h
      · rename_i hl
        cases p with
        | data b x => simp [Packet.toBytes] at hl; omega
        | ack b => simp [Packet.toBytes] at hl
        | _ => exact absurd ht (by simp [packetType_data_iff, Packet.toBytes, be16, PacketType.repr]; try decide)
      · cases h
    · cases h
  all_goals cases h

/-! ### The single threaded server -/

theorem conn_none_any {s : SrvSt} {a : Addr} : s.clients.any (fun x => x.1 == a) = false ↔ s.conn a = none := by
  rw [conn_none_iff]
  simp only [SrvSt.addrs, List.any_eq_false, beq_iff_eq, List.mem_map, not_exists, not_and]

theorem newPanics_iff {S} (v : Srv S) (t : Nat) (dg : Bytes) (io : NewIo) :
    v.newPanics t dg io = true ↔ ∃ write r, v.requestOf dg = some (write, r) ∧
      ((v.newConn t dg io).result = .error .name ∨ (v.newConn t dg io).result = .error .file) ∧ Spec.PoisonName r.fileName := by
  unfold Srv.newPanics
  cases h1 : v.requestOf dg with
  | none => simp
  | some x =>
    obtain ⟨w, r⟩ := x
    cases h2 : (v.newConn t dg io).result with
    | ok y => simp
    | error e =>
      have key : quotePanics r.fileName = true ↔ ∃ write r', some (w, r) = some (write, r') ∧ True ∧ Spec.PoisonName r'.fileName := by
        rw [quotePanics_iff]
        constructor
        · intro h; exact ⟨w, r, rfl, trivial, h⟩
        · rintro ⟨_, _, h1, _, h2⟩; cases h1; exact h2
      cases e with
      | name => simpa using key
      | file => simpa using key
      | _ => simp

/-- **C29**, the single threaded server: after any history which it has survived, exactly these events end it:
* on the socket of a client whose transfer is encrypted at level data arrives a data packet of 40 to 43 bytes, whatever is in it;
* from an address without connection, while there is room for one, comes a request whose options are accepted, whose name is
  invalid or can not be opened, and byte 100 of the name is inside a character. -/
theorem c29_single_thread_partial {S} (v : Srv S) (evs : List SrvEv) (s : SrvSt) (_ : v.runC ⟨[], 0⟩ evs = some s) (e : SrvEv) :
    v.stepC s e = none ↔
      (∃ t a dg io c, e = .client t a dg io ∧ s.conn a = some c ∧ c.enc.isSome ∧ c.opts.level = .data ∧ Spec.PoisonData dg) ∨
      (∃ t a dg io write r, e = .main t a dg io ∧ s.conn a = none ∧ s.clients.length < v.maxConn ∧
        v.requestOf dg = some (write, r) ∧
        ((v.newConn t dg io).result = .error .name ∨ (v.newConn t dg io).result = .error .file) ∧ Spec.PoisonName r.fileName) := by
  have h0 : v.stepC s e = none ↔ v.panics s e = true := by
    unfold Srv.stepC
    cases v.panics s e <;> simp
  rw [h0]
  cases e with
  | purge t io => simp [Srv.panics]
  | round t io => simp [Srv.panics]
  | client t a dg io =>
    simp only [Srv.panics]
    cases hc : s.conn a with
    | none =>
      simp only [Bool.false_eq_true, false_iff]
      rintro (⟨_, _, _, _, _, he, h, _⟩ | ⟨_, _, _, _, _, _, he, _⟩)
      · cases he; rw [hc] at h; cases h
      · cases he
    | some c =>
      simp only [recvPanics_iff]
      constructor
      · rintro ⟨h1, h2, h3⟩; exact .inl ⟨t, a, dg, io, c, rfl, hc, h1, h2, h3⟩
      · rintro (⟨_, _, _, _, _, he, h, h1, h2, h3⟩ | ⟨_, _, _, _, _, _, he, _⟩)
        · cases he; rw [hc] at h; cases h; exact ⟨h1, h2, h3⟩
        · cases he
  | main t a dg io =>
    simp only [Srv.panics]
    by_cases ha : s.clients.any (fun x => x.1 == a) = true
    · rw [if_pos ha]
      simp only [Bool.false_eq_true, false_iff]
      rintro (⟨_, _, _, _, _, he, _⟩ | ⟨_, _, _, _, _, _, he, h, _⟩)
      · cases he
      · cases he; rw [conn_none_any.mpr h] at ha; cases ha
    · rw [if_neg ha]
      have ha' := conn_none_any.mp (Bool.eq_false_iff.mpr ha)
      by_cases hl : s.clients.length ≥ v.maxConn
      · rw [if_pos hl]
        simp only [Bool.false_eq_true, false_iff]
        rintro (⟨_, _, _, _, _, he, _⟩ | ⟨_, _, _, _, _, _, he, _, h, _⟩)
        · cases he
        · omega
      · rw [if_neg hl, newPanics_iff]
        constructor
        · rintro ⟨w, r, h1, h2, h3⟩; exact .inr ⟨t, a, dg, io, w, r, rfl, ha', by omega, h1, h2, h3⟩
        · rintro (⟨_, _, _, _, _, he, _⟩ | ⟨_, _, _, _, w, r, he, _, _, h1, h2, h3⟩)
          · cases he
          · cases he; exact ⟨w, r, h1, h2, h3⟩

/-- **C29**: a history without such datagrams is survived, and goes as the model of the server without panics says. -/
theorem c29_survives {S} (v : Srv S) (evs : List SrvEv)
    (h1 : ∀ t a dg io, SrvEv.client t a dg io ∈ evs → ¬ Spec.PoisonData dg)
    (h2 : ∀ t a dg io, SrvEv.main t a dg io ∈ evs → ∀ write r, v.requestOf dg = some (write, r) → ¬ Spec.PoisonName r.fileName)
    (s : SrvSt) : v.runC s evs = some (v.run s evs) := by
  induction evs generalizing s with
  | nil => rfl
  | cons e es ih =>
    have hp : v.panics s e = false := by
      cases e with
      | purge t io => rfl
      | round t io => rfl
      | client t a dg io =>
        simp only [Srv.panics]
        split
        · rename_i c _
          have := h1 t a dg io (by simp)
          cases hr : c.recvPanics dg
          · rfl
          · exact absurd ((recvPanics_iff c dg).mp hr).2.2 this
        · rfl
      | main t a dg io =>
        simp only [Srv.panics]
        split
        · rfl
        · split
          · rfl
          · cases hr : v.newPanics t dg io
            · rfl
            · obtain ⟨w, r, g1, _, g3⟩ := (newPanics_iff v t dg io).mp hr
              exact absurd g3 (h2 t a dg io (by simp) w r g1)
    simp only [Srv.runC, Srv.stepC, hp, Bool.false_eq_true, if_false, Option.bind_some]
    exact ih (fun t a dg io h => h1 t a dg io (List.mem_cons_of_mem _ h)) (fun t a dg io h => h2 t a dg io (List.mem_cons_of_mem _ h)) _

/-- A survived history goes as the model of the server without panics says: all that is proved of `Srv.run` holds up to the end of
the process. -/
theorem c29_run_of_runC {S} (v : Srv S) (evs : List SrvEv) (s s' : SrvSt) (h : v.runC s evs = some s') : s' = v.run s evs := by
  induction evs generalizing s with
  | nil => simpa [Srv.runC, Srv.run] using h.symm
  | cons e es ih =>
    simp only [Srv.runC, Srv.stepC] at h
    split at h
    · cases h
    · exact ih _ (by simpa using h)

/-- **C29**: with a list of authorized keys, only the holder of a listed key can end the server by a request. -/
theorem c29_needs_signature {S} (v : Srv S) (ks : List Bytes) (hks : v.cfg.authorized = some ks) (s : SrvSt) (t : Nat) (a : Addr)
    (dg : Bytes) (io : NewIo) (h : v.stepC s (.main t a dg io) = none) : ∃ remote, Spec.Signed v ks dg remote := by
  apply Classical.byContradiction
  intro hno
  have hno : ∀ remote, ¬ Spec.Signed v ks dg remote := fun r hr => hno ⟨r, hr⟩
  have hp : v.panics s (.main t a dg io) = true := by
    unfold Srv.stepC at h
    split at h
    · assumption
    · cases h
  simp only [Srv.panics] at hp
  split at hp
  · cases hp
  · split at hp
    · cases hp
    · obtain ⟨w, r, _, g2, _⟩ := (newPanics_iff v t dg io).mp hp
      rcases newConn_unsigned v ks hks t dg io hno with e | e <;> rw [e] at g2 <;> rcases g2 with g2 | g2 <;> cases g2

/-- A read request for a file whose name is forty ideographic spaces (E3 80 80), without options. -/
def Spec.blankRequest : Bytes := [0, 1] ++ (List.replicate 40 [227, 128, 128]).flatten ++ [0, 111, 99, 116, 101, 116, 0]

theorem blank_decoded : Packet.fromBytes Spec.blankRequest = .ok (.read ⟨(List.replicate 40 [227, 128, 128]).flatten, Exts.empty⟩) := by
  have e : Spec.blankRequest = (Packet.read ⟨(List.replicate 40 [227, 128, 128]).flatten, Exts.empty⟩).toBytes := by decide +kernel
  rw [e]
  exact c01_round_trip _ ⟨⟨by decide +kernel, by decide +kernel⟩, fun k v hv => by cases hv⟩

theorem blank_refused {S} (v : Srv S) (dg : Bytes) (h : (v.openRequest dg).2 = Spec.blankRequest) (ha : v.cfg.authorized = none)
    (hr : v.cfg.requireFull = false ∨ (v.openRequest dg).1.isSome) (t : Nat) (io : NewIo) :
    (v.newConn t dg io).result = .error .name := by
  have hn : normalizeName (List.replicate 40 [227, 128, 128]).flatten = none := by decide +kernel
  have hparse : srvParse v.cfg io.sessionPub Exts.empty { Opts.default with level := if (v.openRequest dg).1.isSome then .full else .none } =
      .ok (Exts.empty, { Opts.default with level := if (v.openRequest dg).1.isSome then .full else .none }, none) := by
    rcases hr with hr | hr <;>
    simp [srvParse, srvBlock, srvWindow, srvTimeout, srvSize, Exts.empty, ha, hr, optParse]
  unfold Srv.newConn
  simp only
  rw [h, blank_decoded]
  simp only [hparse, hn]
  rw [if_neg]
  simp [sizeAllowed, Opts.default]

/-- Finding (C29): one datagram of 129 bytes ends a server without list of authorized keys, whatever its history, its files and
its other configuration: a request for a name which consists of forty ideographic spaces, in the clear, or sealed to the server if
encryption is required. The address must be new and the table not full. Nothing is known to its sender but the address (and the
public key) of the server. -/
theorem c29_blank_name_ends_server {S} (v : Srv S) (ha : v.cfg.authorized = none) (dg : Bytes)
    (h : (v.openRequest dg).2 = Spec.blankRequest) (hr : v.cfg.requireFull = false ∨ (v.openRequest dg).1.isSome)
    (s : SrvSt) (a : Addr) (hs : s.conn a = none) (hl : s.clients.length < v.maxConn) (t : Nat) (io : NewIo) :
    v.stepC s (.main t a dg io) = none := by
  unfold Srv.stepC
  rw [if_pos]
  simp only [Srv.panics]
  rw [if_neg (by rw [conn_none_any.mpr hs]; simp), if_neg (by omega), newPanics_iff]
  refine ⟨false, ⟨(List.replicate 40 [227, 128, 128]).flatten, Exts.empty⟩, ?_, .inl (blank_refused v dg h ha hr t io), ?_⟩
  · unfold Srv.requestOf; rw [h, blank_decoded]
  · exact ⟨128, by decide +kernel, by decide +kernel, by decide +kernel⟩

/-- The hypotheses are met by every server without private key, and by every server with one, if the request is sealed to it. -/
theorem c29_blank_name_delivered {S} (v : Srv S) :
    (v.cfg.privateKey = none → (v.openRequest Spec.blankRequest).2 = Spec.blankRequest) ∧
    (v.cfg.privateKey.isSome → ∀ nonce pub, nonce.length = 24 → pub.length = 32 →
      ∃ dg, sealInitial (v.handshake pub) nonce pub Spec.blankRequest 516 = .ok dg ∧ (v.openRequest dg).2 = Spec.blankRequest ∧
        (v.openRequest dg).1.isSome) := by
  refine ⟨fun h => by unfold Srv.openRequest; rw [h], fun hk nonce pub hn hp => ?_⟩
  have hne : Spec.blankRequest ≠ [] := by decide +kernel
  have hlen : Spec.blankRequest.length + 73 ≤ 516 := by decide +kernel
  obtain ⟨p, ct, tag, h1, -⟩ := c27_initial (v.handshake pub) nonce pub Spec.blankRequest 516 hn hp hne hlen
  have hop := openRequest_sealed v hk nonce pub _ _ 516 hn hp hne hlen h1
  exact ⟨_, h1, by rw [hop], by rw [hop]; rfl⟩

/-! ### The multi threaded server -/

/-- The multi threaded server with its panics: in the main thread they end the process (`none`), in the thread of a client only
this thread, whose handle is finished then. src/server/multi_thread.rs:111-238, 256-326. -/
def Srv.mstepC {S} (v : Srv S) (s : MSt) : MEv → Option MSt
  | .main t a dg io =>
    if s.up && !s.retain.handles.any (fun x => x.1 == a) && decide (s.retain.handles.length < v.maxConn) && v.newPanics t dg io then none
    else some (v.mstep s (.main t a dg io)).1
  | .thread a (.dgram t dg io) =>
    some { s with handles := s.handles.map fun x =>
      if x.1 = a then
        if x.2.pc = .wait ∧ x.2.conn.recvPanics dg = true then (a, { x.2 with pc := .over }) else (a, (v.threadStep x.2 (.dgram t dg io)).1)
      else x }
  | e => some (v.mstep s e).1

/-- **C29**, the multi threaded server: only a request on the main socket ends it, as with the single threaded one. -/
theorem c29_multi_thread_partial {S} (v : Srv S) (s : MSt) (e : MEv) :
    v.mstepC s e = none ↔ ∃ t a dg io write r, e = .main t a dg io ∧ s.up = true ∧ a ∉ s.retain.addrs ∧
      s.retain.addrs.length < v.maxConn ∧ v.requestOf dg = some (write, r) ∧
      ((v.newConn t dg io).result = .error .name ∨ (v.newConn t dg io).result = .error .file) ∧ Spec.PoisonName r.fileName := by
  cases e with
  | idle => simp [Srv.mstepC]
  | broken => simp [Srv.mstepC]
  | thread a e => cases e <;> simp [Srv.mstepC]
  | main t a dg io =>
    have hany : (!s.retain.handles.any (fun x => x.1 == a)) = true ↔ a ∉ s.retain.addrs := by
      simp only [Bool.not_eq_true', List.any_eq_false, beq_iff_eq, MSt.addrs, List.mem_map, not_exists, not_and]
    have hlen : s.retain.addrs.length = s.retain.handles.length := by simp [MSt.addrs]
    simp only [Srv.mstepC]
    constructor
    · intro h
      split at h
      · rename_i hc
        simp only [Bool.and_eq_true, decide_eq_true_eq] at hc
        obtain ⟨⟨⟨h1, h2⟩, h3⟩, h4⟩ := hc
        obtain ⟨w, r, g1, g2, g3⟩ := (newPanics_iff v t dg io).mp h4
        exact ⟨t, a, dg, io, w, r, rfl, h1, hany.mp h2, by omega, g1, g2, g3⟩
      · cases h
    · rintro ⟨_, _, _, _, w, r, he, h1, h2, h3, g1, g2, g3⟩
      cases he
      rw [if_pos]
      simp only [Bool.and_eq_true, decide_eq_true_eq]
      exact ⟨⟨⟨h1, hany.mpr h2⟩, by omega⟩, (newPanics_iff v t dg io).mpr ⟨w, r, g1, g2, g3⟩⟩

/-- **C29**: a datagram for the thread of a client ends at most this thread; every other client's thread stays as it is. -/
theorem c29_thread_ends_alone {S} (v : Srv S) (s : MSt) (a : Addr) (t : Nat) (dg : Bytes) (io : RecvIo) :
    ∃ s', v.mstepC s (.thread a (.dgram t dg io)) = some s' ∧ s'.up = s.up ∧ s'.addrs = s.addrs ∧
      ∀ b, b ≠ a → s'.thread b = s.thread b := by
  refine ⟨_, rfl, rfl, ?_, ?_⟩
  · simp only [MSt.addrs, List.map_map]
    apply List.map_congr_left
    intro x _
    simp only [Function.comp]
    split
    · rename_i hx; split <;> exact hx.symm
    · rfl
  · intro b hb
    simp only [MSt.thread]
    congr 1
    generalize s.handles = l
    induction l with
    | nil => rfl
    | cons x r ih =>
      simp only [List.map_cons, List.find?_cons]
      by_cases hx : x.1 = a
      · have h1 : (x.1 == b) = false := by simpa [hx] using fun h => hb h.symm
        have h2 : (a == b) = false := by simpa using fun h => hb h.symm
        rw [if_pos hx, h1]
        have h3 : ∀ y z : Thread, ((if x.2.pc = Pc.wait ∧ x.2.conn.recvPanics dg = true then (a, y) else (a, z)).1 == b) = false := by
          intro y z; split <;> exact h2
        rw [h3]
        exact ih
      · rw [if_neg hx]
        cases x.1 == b with
        | true => rfl
        | false => exact ih

/-- **C29**: what becomes of the thread of this client: it ends if it was waiting and the datagram is a data packet of 40 to 43 bytes for
a connection at level data; otherwise it goes on as it would. -/
theorem c29_thread_ends {S} (v : Srv S) (s : MSt) (a : Addr) (t : Nat) (dg : Bytes) (io : RecvIo) (x : Thread) (hx : s.thread a = some x) :
    ∃ s', v.mstepC s (.thread a (.dgram t dg io)) = some s' ∧
      (x.pc = .wait → x.conn.enc.isSome → x.conn.opts.level = .data → Spec.PoisonData dg → s'.thread a = some { x with pc := .over }) ∧
      (¬ (x.pc = .wait ∧ x.conn.enc.isSome ∧ x.conn.opts.level = .data ∧ Spec.PoisonData dg) →
        s'.thread a = some (v.threadStep x (.dgram t dg io)).1) := by
  refine ⟨_, rfl, ?_⟩
  rw [← and_imp, ← and_imp, ← and_imp]
  have key : MSt.thread { s with handles := s.handles.map fun y =>
      if y.1 = a then
        if y.2.pc = .wait ∧ y.2.conn.recvPanics dg = true then (a, { y.2 with pc := .over }) else (a, (v.threadStep y.2 (.dgram t dg io)).1)
      else y } a = some (if x.pc = .wait ∧ x.conn.recvPanics dg = true then { x with pc := .over } else (v.threadStep x (.dgram t dg io)).1) := by
    simp only [MSt.thread] at hx ⊢
    generalize s.handles = l at hx
    induction l with
    | nil => cases hx
    | cons y r ih =>
      simp only [List.map_cons, List.find?_cons] at hx ⊢
      by_cases hy : y.1 = a
      · have hya : (y.1 == a) = true := by simpa using hy
        rw [hya] at hx
        simp only [Option.map_some, Option.some.injEq] at hx
        subst hx
        rw [if_pos hy]
        by_cases hp : y.2.pc = .wait ∧ y.2.conn.recvPanics dg = true
        · rw [if_pos hp, if_pos hp]; simp
        · rw [if_neg hp, if_neg hp]; simp
      · have hya : (y.1 == a) = false := by simpa using hy
        rw [hya] at hx
        rw [if_neg hy, hya]
        exact ih hx
  constructor
  · rintro ⟨⟨⟨h1, h2⟩, h3⟩, h4⟩
    rw [if_pos ⟨h1, (recvPanics_iff _ _).mpr ⟨h2, h3, h4⟩⟩] at key
    exact key
  · intro h
    rw [if_neg (fun hc => h ⟨hc.1, (recvPanics_iff _ _).mp hc.2⟩)] at key
    exact key

/-! ### The client -/

/-- src/client/encryption_socket.rs:65-91 `recv_from` panics. -/
def Sock.recvPanics (k : Sock) (b : Bytes) : Bool := match k.enc with
  | some A => match unprotect A k.level b with
    | .panic => true
    | _ => false
  | none => false

/-- **C29**, the client: its socket panics exactly for data packets of 40 to 43 bytes at level data. It does not look at the source
of the datagram first: anybody who can reach the client can end it. -/
theorem c29_client_partial (k : Sock) (b : Bytes) :
    k.recvPanics b = true ↔ k.enc.isSome ∧ k.level = .data ∧ Spec.PoisonData b :=
  recvPanics_iff ⟨{ Opts.default with level := k.level }, k.enc, .writer ⟨Writer.new, 0, 0, false, false⟩, 0, 0, 1⟩ b

/-! ### Examples -/

/-- C29: one client downloads; the blank name from a second address ends the server. From the address of
the first client it does not. -/
example : (Toy.srv.runC ⟨[], 0⟩ [.main 0 1 Toy.rrq Toy.io, .round 1 Toy.sio]).isSome ∧
    Toy.srv.runC ⟨[], 0⟩ [.main 0 1 Toy.rrq Toy.io, .round 1 Toy.sio, .main 2 2 Spec.blankRequest Toy.io] = none ∧
    (Toy.srv.runC ⟨[], 0⟩ [.main 0 1 Toy.rrq Toy.io, .main 2 1 Spec.blankRequest Toy.io]).isSome := by
  refine ⟨by decide +kernel, ?_, by decide +kernel⟩
  have h : (Toy.srv.runC ⟨[], 0⟩ [.main 0 1 Toy.rrq Toy.io, .round 1 Toy.sio, .main 2 2 Spec.blankRequest Toy.io]).isNone = true := by
    decide +kernel
  simpa using h

/-- C29: a download at level data. A data packet of 40 bytes from the address of its client ends the server; one of 39 or 44 bytes
does not, and neither does one of 40 bytes from elsewhere, or at level full. -/
def Toy.atLevel (l : Level) : SrvSt := ⟨[(1, { Toy.reader 0 with enc := some Toy.aead, opts := { Opts.default with level := l } })], 0⟩

example : (Toy.srv.stepC (Toy.atLevel .data) (.client 1 1 ([0, 3] ++ List.replicate 38 0) ⟨.all, true, 0⟩)).isNone ∧
    (Toy.srv.stepC (Toy.atLevel .data) (.client 1 1 ([0, 3] ++ List.replicate 37 0) ⟨.all, true, 0⟩)).isSome ∧
    (Toy.srv.stepC (Toy.atLevel .data) (.client 1 1 ([0, 3] ++ List.replicate 42 0) ⟨.all, true, 0⟩)).isSome ∧
    (Toy.srv.stepC (Toy.atLevel .data) (.client 1 2 ([0, 3] ++ List.replicate 38 0) ⟨.all, true, 0⟩)).isSome ∧
    (Toy.srv.stepC (Toy.atLevel .full) (.client 1 1 ([0, 3] ++ List.replicate 38 0) ⟨.all, true, 0⟩)).isSome := by
  decide +kernel

/-- The hypotheses of `c29_thread_ends`: the thread of client 1 waits for a datagram at level data; the one of client 2 does, too, and stays. -/
example : ∃ s', Toy.srv.mstepC ⟨(Toy.atLevel .data).clients.map (fun x => (x.1, ⟨x.2, .wait⟩)) ++
      (Toy.atLevel .data).clients.map (fun x => (2, ⟨x.2, .wait⟩)), true⟩ (.thread 1 (.dgram 1 ([0, 3] ++ List.replicate 38 0) ⟨.all, true, 0⟩)) = some s' ∧
    (s'.thread 1).map (·.pc) = some .over ∧ (s'.thread 2).map (·.pc) = some .wait :=
  ⟨_, rfl, by decide +kernel, by decide +kernel⟩

end Tftp

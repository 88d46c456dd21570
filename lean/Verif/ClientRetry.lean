import Verif.Client
/-
C31: the client's request is repeated with growing pauses and given up after the request timeout.
-/
namespace Tftp

/-- Specification: the pause after unanswered attempts which ended `es` milliseconds (oldest first) after the start: it doubles,
but never exceeds the time left. -/
def Spec.pause (T first : Nat) (es : List Nat) : Nat := es.foldl (fun p e => min (T - e) (p * 2)) first

/-- Nothing arrives in these iterations, and the requests can be sent. -/
structure Spec.Silence {S} (v : Cli S) (j : Job) (exts : Exts) (is : List CliIn) : Prop where
  silent : ∀ i ∈ is, i.recv = .wouldBlock
  sent : ∀ i ∈ is, (v.put (v.initialSock j.opts).1 i.nonce i.sendOk (j.request exts)).isSome

theorem query_silent {S} (v : Cli S) (j : Job) (q : Query) (is : List CliIn) (h : Spec.Silence v j q.exts is)
    (hin : ∀ i ∈ is, i.t - q.start ≤ v.cfg.requestTimeout) :
    (v.runFrom j (.query q) is).1 =
      .query { q with pause := Spec.pause v.cfg.requestTimeout q.pause (is.map fun i => i.t - q.start) } ∧
    (v.runFrom j (.query q) is).2.map some = is.map fun i =>
      (v.put (v.initialSock j.opts).1 i.nonce i.sendOk (j.request q.exts)).map fun d => (v.cfg.endpoint, d) := by
  induction is generalizing q with
  | nil => exact ⟨rfl, rfl⟩
  | cons i is ih =>
    obtain ⟨d, hd⟩ := Option.isSome_iff_exists.mp (h.sent i List.mem_cons_self)
    have hr := h.silent i List.mem_cons_self
    have hi := hin i List.mem_cons_self
    have hstep : v.step j (.query q) i =
        (.query { q with pause := min (v.cfg.requestTimeout - (i.t - q.start)) (q.pause * 2) }, [(v.cfg.endpoint, d)]) := by
      simp only [Cli.step, Cli.queryStep, hd, hr]
      rw [if_neg (by omega)]
    have := ih { q with pause := min (v.cfg.requestTimeout - (i.t - q.start)) (q.pause * 2) }
      ⟨fun x hx => h.silent x (List.mem_cons_of_mem _ hx), fun x hx => h.sent x (List.mem_cons_of_mem _ hx)⟩
      (fun x hx => hin x (List.mem_cons_of_mem _ hx))
    simp only [Cli.runFrom, hstep]
    refine ⟨this.1, ?_⟩
    rw [List.map_append, this.2]
    simp [hd]

/-- **C31**: while nothing arrives and the time is not over, the client goes on: one request per attempt, to the configured
server, and the pause before the next one is `Spec.pause`. -/
theorem c31_repeats {S} (v : Cli S) (j : Job) (t0 : Nat) (is : List CliIn) (h : Spec.Silence v j (v.start j t0).exts is)
    (hin : ∀ i ∈ is, i.t - t0 ≤ v.cfg.requestTimeout) :
    (∃ q, (v.run j t0 is).1 = .query q ∧
      q.pause = Spec.pause v.cfg.requestTimeout (v.requestOpts j).retry (is.map fun i => i.t - t0)) ∧
    (v.run j t0 is).2.length = is.length ∧ (∀ x ∈ (v.run j t0 is).2, x.1 = v.cfg.endpoint) ∧
    (∀ x ∈ (v.run j t0 is).2, ∃ i ∈ is, v.put (v.initialSock j.opts).1 i.nonce i.sendOk (j.request (v.start j t0).exts) = some x.2) := by
  have := query_silent v j (v.start j t0) is h hin
  refine ⟨⟨_, this.1, rfl⟩, ?_, ?_⟩
  · have h2 := congrArg List.length this.2
    simpa [Cli.run] using h2
  · have key : ∀ x ∈ (v.run j t0 is).2, ∃ i ∈ is,
        (v.put (v.initialSock j.opts).1 i.nonce i.sendOk (j.request (v.start j t0).exts)).map (fun d => (v.cfg.endpoint, d)) = some x := by
      intro x hx
      have : some x ∈ (v.run j t0 is).2.map some := List.mem_map.mpr ⟨x, hx, rfl⟩
      unfold Cli.run at this
      rw [(query_silent v j (v.start j t0) is h hin).2] at this
      obtain ⟨i, hi, e⟩ := List.mem_map.mp this
      exact ⟨i, hi, e⟩
    refine ⟨fun x hx => ?_, fun x hx => ?_⟩
    · obtain ⟨i, _, e⟩ := key x hx
      obtain ⟨d, _, rfl⟩ := Option.map_eq_some_iff.mp e
      rfl
    · obtain ⟨i, hi, e⟩ := key x hx
      obtain ⟨d, e', rfl⟩ := Option.map_eq_some_iff.mp e
      exact ⟨i, hi, e'⟩

theorem runFrom_append {S} (v : Cli S) (j : Job) (s : CliSt) (a b : List CliIn) :
    v.runFrom j s (a ++ b) =
      ((v.runFrom j (v.runFrom j s a).1 b).1, (v.runFrom j s a).2 ++ (v.runFrom j (v.runFrom j s a).1 b).2) := by
  induction a generalizing s with
  | nil => rfl
  | cons i a ih => simp only [List.cons_append, Cli.runFrom, ih]; simp

theorem runFrom_done {S} (v : Cli S) (j : Job) (r f) (is : List CliIn) : v.runFrom j (.done r f) is = (.done r f, []) := by
  induction is with
  | nil => rfl
  | cons i is ih => simp only [Cli.runFrom, Cli.step, ih]; rfl

/-- **C31** (partial): if nothing at all arrives, the client gives up with a timeout error in the first attempt which ends after
the request timeout, and sends nothing more. Missing: "nothing from the server arrives", see `c31_foreign_blocks_timeout`. -/
theorem c31_gives_up_partial {S} (v : Cli S) (j : Job) (t0 : Nat) (is later : List CliIn) (i : CliIn)
    (h : Spec.Silence v j (v.start j t0).exts (is ++ [i]))
    (hin : ∀ i ∈ is, i.t - t0 ≤ v.cfg.requestTimeout) (hi : i.t - t0 > v.cfg.requestTimeout) :
    (v.run j t0 (is ++ i :: later)).1 = .done (.error .timeout) [] ∧ (v.run j t0 (is ++ i :: later)).2.length = is.length + 1 := by
  have h1 : Spec.Silence v j (v.start j t0).exts is :=
    ⟨fun x hx => h.silent x (List.mem_append_left _ hx), fun x hx => h.sent x (List.mem_append_left _ hx)⟩
  obtain ⟨d, hd⟩ := Option.isSome_iff_exists.mp (h.sent i (by simp))
  have hr := h.silent i (by simp)
  have hq := query_silent v j (v.start j t0) is h1 hin
  have hl := (c31_repeats v j t0 is h1 hin).2.1
  unfold Cli.run at hl ⊢
  rw [runFrom_append]
  simp only [hq.1, Cli.runFrom]
  have hstep : v.step j (.query { v.start j t0 with
      pause := Spec.pause v.cfg.requestTimeout (v.start j t0).pause (is.map fun i => i.t - (v.start j t0).start) }) i =
      (.done (.error .timeout) [], [(v.cfg.endpoint, d)]) := by
    simp only [Cli.step, Cli.queryStep, hd, hr]
    exact if_pos hi
  rw [hstep]
  simp [runFrom_done, hl]

theorem pause_snoc (T first : Nat) (es : List Nat) (e : Nat) :
    Spec.pause T first (es ++ [e]) = min (T - e) (Spec.pause T first es * 2) := by simp [Spec.pause]

/-- **C31**: a pause is never longer than the time left. -/
theorem c31_pause_within_time_left (T first : Nat) (es : List Nat) (e : Nat) : Spec.pause T first (es ++ [e]) ≤ T - e := by
  rw [pause_snoc]; omega

/-- **C31**: the pauses double as long as there is time for them. -/
theorem c31_pause_doubles (T first : Nat) (es : List Nat) (h : ∀ n (hn : n < es.length), first * 2 ^ (n + 1) ≤ T - es[n]) :
    Spec.pause T first es = first * 2 ^ es.length := by
  have key : ∀ n, ∀ es : List Nat, es.length = n → (∀ n (hn : n < es.length), first * 2 ^ (n + 1) ≤ T - es[n]) →
      Spec.pause T first es = first * 2 ^ es.length := by
    intro n
    induction n with
    | zero => intro es he _; rw [List.length_eq_zero_iff.mp he]; simp [Spec.pause]
    | succ n ih =>
    intro es0 hlen h
    obtain ⟨es, e, rfl⟩ : ∃ l x, es0 = l ++ [x] := ⟨es0.dropLast, es0.getLast (by intro h0; rw [h0] at hlen; cases hlen),
      (List.dropLast_concat_getLast _).symm⟩
    have hlast := h es.length (by simp)
    simp only [List.getElem_concat_length] at hlast
    have ih := ih es (by simpa using hlen) (fun n hn => by
      have := h n (by simp; omega)
      rwa [List.getElem_append_left hn] at this)
    rw [pause_snoc, ih, List.length_append]
    simp only [List.length_singleton]
    have : first * 2 ^ es.length * 2 = first * 2 ^ (es.length + 1) := by rw [Nat.pow_succ, Nat.mul_assoc]
    omega
  exact key _ es rfl h

/-- Specification: a clock for which a wait lasts at least the pause and at most `δ` longer. -/
def Spec.Waits (T first δ : Nat) (es : List Nat) : Prop :=
  ∀ n (hn : n < es.length), (es.take n).getLastD 0 + Spec.pause T first (es.take n) ≤ es[n] ∧
    es[n] ≤ (es.take n).getLastD 0 + Spec.pause T first (es.take n) + δ

/-- **C31**: if a wait takes at most `δ` longer than the pause, an attempt which the client still makes ends at most `δ` after the
request timeout. -/
theorem c31_gives_up_in_time (T first δ : Nat) (es : List Nat) (hf : first ≤ T) (hw : Spec.Waits T first δ es)
    (n : Nat) (hn : n < es.length) (h : ∀ m (hm : m < n), es[m] ≤ T) : es[n] ≤ T + δ := by
  have h2 := (hw n hn).2
  cases n with
  | zero => simp [Spec.pause] at h2; omega
  | succ m =>
    have e : es.take (m + 1) = es.take m ++ [es[m]] := by rw [List.take_succ_eq_append_getElem]
    rw [e, List.getLastD_concat] at h2
    have := c31_pause_within_time_left T first (es.take m) es[m]
    have := h m (Nat.lt_succ_self m)
    omega

/-- **C31**: and the number of attempts within the timeout is at most logarithmic: when attempt `n` ends before the timeout,
`n + 1` doubling pauses have passed. -/
theorem c31_few_requests (T first δ : Nat) (es : List Nat) (hw : Spec.Waits T first δ es) (n : Nat) (hn : n < es.length) (h : es[n] < T) :
    first * (2 ^ (n + 1) - 1) ≤ es[n] := by
  have key : ∀ n (hn : n < es.length), es[n] < T →
      Spec.pause T first (es.take n) = first * 2 ^ n ∧ first * (2 ^ (n + 1) - 1) ≤ es[n] := by
    intro n
    induction n with
    | zero =>
      intro hn h
      have := (hw 0 hn).1
      simp [Spec.pause] at this ⊢
      exact this
    | succ n ih =>
      intro hn h
      have h1 := (hw (n + 1) hn).1
      have e : es.take (n + 1) = es.take n ++ [es[n]] := by rw [List.take_succ_eq_append_getElem]
      rw [e, List.getLastD_concat, pause_snoc] at h1
      have hlt : es[n] < T := by omega
      obtain ⟨i1, i2⟩ := ih (by omega) hlt
      rw [i1] at h1
      have hp : first * 2 ^ n * 2 = first * 2 ^ (n + 1) := by rw [Nat.pow_succ, Nat.mul_assoc]
      rw [e, pause_snoc, i1, hp]
      rw [hp] at h1
      have hmin : min (T - es[n]) (first * 2 ^ (n + 1)) = first * 2 ^ (n + 1) := by
        rcases Nat.le_total (T - es[n]) (first * 2 ^ (n + 1)) with hle | hle
        · rw [Nat.min_eq_left hle] at h1; omega
        · exact Nat.min_eq_right hle
      refine ⟨hmin, ?_⟩
      rw [hmin] at h1
      have hpos : ∀ k, 1 ≤ 2 ^ k := fun k => Nat.one_le_two_pow
      have e1 : first * (2 ^ (n + 1 + 1) - 1) = first * (2 ^ (n + 1) - 1) + first * 2 ^ (n + 1) := by
        rw [← Nat.mul_add]
        congr 1
        have := hpos (n + 1)
        rw [Nat.pow_succ 2 (n + 1)]
        omega
      omega
  exact (key n hn h).2

/-- **C31**: the same about the client: however the attempts go, if nothing arrives, an attempt (number `n`) which the client
makes ends at most `δ` after the request timeout. -/
theorem c31_client_in_time {S} (v : Cli S) (j : Job) (t0 δ : Nat) (is : List CliIn) (h : Spec.Silence v j (v.start j t0).exts is)
    (hf : (v.requestOpts j).retry ≤ v.cfg.requestTimeout)
    (hw : Spec.Waits v.cfg.requestTimeout (v.requestOpts j).retry δ (is.map fun i => i.t - t0))
    (n : Nat) (hn : n < is.length) (hq : ∃ q, (v.run j t0 (is.take n)).1 = .query q) : is[n].t - t0 ≤ v.cfg.requestTimeout + δ := by
  have := c31_gives_up_in_time _ _ δ _ hf hw n (by simpa using hn) (fun m => by
    induction m using Nat.strongRecOn with
    | ind m ih =>
      intro hm
      apply Classical.byContradiction
      intro hbig
      simp only [List.getElem_map] at hbig
      have e : is.take n = is.take m ++ is[m] :: (is.take n).drop (m + 1) := by
        have h1 : (is.take n).take m = is.take m := by rw [List.take_take, Nat.min_eq_left (by omega)]
        have h2 : (is.take n)[m]'(by simp; omega) = is[m] := by simp
        rw [← h1, ← h2, ← List.drop_eq_getElem_cons, List.take_append_drop]
      have hsub : ∀ x ∈ is.take m ++ [is[m]], x ∈ is := by
        intro x hx
        rcases List.mem_append.mp hx with hx | hx
        · exact List.mem_of_mem_take hx
        · rw [List.mem_singleton.mp hx]; exact List.getElem_mem _
      obtain ⟨q, hq⟩ := hq
      rw [e, (c31_gives_up_partial v j t0 (is.take m) _ is[m] ⟨fun x hx => h.silent x (hsub x hx), fun x hx => h.sent x (hsub x hx)⟩
        (fun i hi => by
          obtain ⟨k, hk, rfl⟩ := List.mem_iff_getElem.mp hi
          have hk' : k < m := by simp at hk; omega
          have := ih k hk' (by omega)
          simpa using this) (by omega)).1] at hq
      cases hq)
  simpa using this

/-- **C31**, during a transfer: a download from which nothing more arrives ends with a timeout error at the first look at the clock
after the request timeout, and not before; nothing is sent meanwhile and the file keeps what was written. -/
theorem c31_download_gives_up {S} (v : Cli S) (j : Job) (c : Cfg) (room : Nat) (ep : Ep) (s : RecvSt) (since : Nat)
    (auth : Option Bytes) (is : List CliIn) (hs : ∀ i ∈ is, i.recv = .wouldBlock) :
    v.runFrom j (.down c room ep s since auth) is =
      if ∃ i ∈ is, i.t - since > v.cfg.requestTimeout then (.done (.error .timeout) s.w.out, []) else (.down c room ep s since auth, []) := by
  induction is with
  | nil => simp [Cli.runFrom]
  | cons i is ih =>
    have hr := hs i List.mem_cons_self
    have ih := ih fun x hx => hs x (List.mem_cons_of_mem _ hx)
    by_cases hl : i.t - since > v.cfg.requestTimeout
    · rw [if_pos ⟨i, List.mem_cons_self, hl⟩]
      have hd : ∀ (is : List CliIn) r f, v.runFrom j (.done r f) is = (.done r f, []) := by
        intro is r f
        induction is with
        | nil => rfl
        | cons x is ih => simp [Cli.runFrom, Cli.step, ih]
      simp only [Cli.runFrom, Cli.step, Cli.downStep, hr, if_pos hl, hd, List.append_nil]
    · simp only [Cli.runFrom, Cli.step, Cli.downStep, hr, if_neg hl, ih, List.nil_append]
      by_cases h : ∃ x ∈ is, x.t - since > v.cfg.requestTimeout
      · obtain ⟨x, hx, hxt⟩ := h
        rw [if_pos ⟨x, hx, hxt⟩, if_pos ⟨x, List.mem_cons_of_mem _ hx, hxt⟩]
      · rw [if_neg h, if_neg]
        rintro ⟨x, hx, hxt⟩
        rcases List.mem_cons.mp hx with rfl | hx
        · exact hl hxt
        · exact h ⟨x, hx, hxt⟩

/-- **C31**, during a transfer: an upload to which nothing is answered goes on until the request timeout and ends, with a timeout
error (or with an I/O error, if the file or the socket fails first), at the first look at the clock after it. -/
theorem c31_upload_gives_up {S} (v : Cli S) (j : Job) (c : Cfg) (room : Nat) (ep : Ep) (s : SendSt) (since : Nat)
    (auth : Option Bytes) (is : List CliIn) (hs : ∀ i ∈ is, i.recv = .wouldBlock) :
    if ∃ i ∈ is, i.t - since > v.cfg.requestTimeout then
      (v.runFrom j (.up c room ep s since auth) is).1 = .done (.error .timeout) [] ∨
      (v.runFrom j (.up c room ep s since auth) is).1 = .done (.error .io) []
    else (∃ s', (v.runFrom j (.up c room ep s since auth) is).1 = .up c room ep s' since auth) ∨
      (v.runFrom j (.up c room ep s since auth) is).1 = .done (.error .io) [] := by
  have hd : ∀ (is : List CliIn) r f, v.runFrom j (.done r f) is = (.done r f, []) := by
    intro is r f
    induction is with
    | nil => rfl
    | cons x is ih => simp [Cli.runFrom, Cli.step, ih]
  induction is generalizing s with
  | nil => simp [Cli.runFrom]
  | cons i is ih =>
    have hr := hs i List.mem_cons_self
    simp only [Cli.runFrom, Cli.step, Cli.upStep, hr]
    generalize clientSendTick c s i.retry i.fail i.wb i.net i.nonce = y
    obtain ⟨s', d⟩ := y
    have ih := ih s' fun x hx => hs x (List.mem_cons_of_mem _ hx)
    simp only
    by_cases hf : s'.failed = true
    · simp only [if_pos hf, hd]; split <;> exact .inr trivial
    · simp only [if_neg hf]
      by_cases hl : i.t - since > v.cfg.requestTimeout
      · rw [if_pos ⟨i, List.mem_cons_self, hl⟩]
        simp only [if_pos hl, hd]; exact .inl trivial
      · simp only [if_neg hl]
        by_cases h : ∃ x ∈ is, x.t - since > v.cfg.requestTimeout
        · rw [if_pos h] at ih
          obtain ⟨x, hx, hxt⟩ := h
          rw [if_pos ⟨x, List.mem_cons_of_mem _ hx, hxt⟩]
          exact ih
        · rw [if_neg h] at ih
          rw [if_neg]
          · exact ih
          · rintro ⟨x, hx, hxt⟩
            rcases List.mem_cons.mp hx with rfl | hx
            · exact hl hxt
            · exact h ⟨x, hx, hxt⟩

/-- **C31**, finding: datagrams from another host keep the client waiting for ever: the timeout is not checked when one arrives
(src/client/connection.rs:202-206). -/
theorem c31_foreign_blocks_timeout {S} (v : Cli S) (j : Job) (hplain : (v.initialSock j.opts).1.enc = none) (t0 : Nat) (is : List CliIn)
    (hs : ∀ i ∈ is, i.sendOk = true) (hf : ∀ i ∈ is, ∃ src d, i.recv = .dgram src d ∧ src.ip ≠ v.cfg.endpoint.ip) :
    ∃ q, (v.run j t0 is).1 = .query q := by
  unfold Cli.run
  generalize v.start j t0 = q
  induction is generalizing q with
  | nil => exact ⟨q, rfl⟩
  | cons i is ih =>
    obtain ⟨src, d, hr, hne⟩ := hf i List.mem_cons_self
    have hsend : (v.initialSock j.opts).1.send (v.nonce i.nonce) (j.request q.exts).toBytes = .ok (j.request q.exts).toBytes := by
      unfold Sock.send
      rw [hplain]
      split <;> simp_all
    have hput : v.put (v.initialSock j.opts).1 i.nonce i.sendOk (j.request q.exts) = some (j.request q.exts).toBytes := by
      unfold Cli.put
      rw [hsend, hs i List.mem_cons_self]
      rfl
    have hrecv : ∀ b, (v.initialSock j.opts).1.recv b = some b := by intro b; unfold Sock.recv; rw [hplain]
    simp only [Cli.runFrom, Cli.step, Cli.queryStep, hput, hr, hrecv, if_pos hne]
    exact ih (fun x hx => hs x (List.mem_cons_of_mem _ hx)) (fun x hx => hf x (List.mem_cons_of_mem _ hx)) _

end Tftp

import Verif.Numerals
import Verif.Options
import Verif.ErrorText
/-
Further statements about options and arguments in terms of what a numeral is (C21, C66, C78).
-/
namespace Tftp
open Spec

/-- **C21**, in terms of numerals: a request whose text of the transfer size means more than the server's limit (and fits into 64 bits) is refused. -/
theorem c21_text {S : SigScheme} (cfg : SrvCfg S) (session : Bytes) (handshake : Level) (ce : Exts) (kind : ReqKind) (t : Bytes) (n : Nat)
    (ht : ce .transferSize = some t) (hn : Numeral t n) (h64 : n < 2 ^ 64) (hm : cfg.maxFileSize < n) :
    ∃ e, srvNegotiate cfg session handshake ce kind = .error e :=
  c21_announced_size_refused cfg session handshake ce kind n ((requested_says _ _ _ _).mpr ⟨t, ht, hn, by omega⟩) hm

/-- **C21**, the other direction: a size which does not fit into 64 bits, or is no number, is taken as not announced. So a write request with such a text is
accepted or refused like the one without it. -/
theorem c21_huge_announcement_ignored {S : SigScheme} (cfg : SrvCfg S) (session : Bytes) (handshake : Level) (ce : Exts) (t : Bytes)
    (ht : ce .transferSize = some t) (hn : ∀ n, Numeral t n → 2 ^ 64 ≤ n) (u : Exts) (o : Opts) (k : Option SessionKeys)
    (h : srvNegotiate cfg session handshake ce .write = .ok (u, o, k)) : o.fileSize = none ∧ u .transferSize = none := by
  obtain ⟨u0, o0, hp, -, hk⟩ := srvNegotiate_ok h
  obtain ⟨u1, o1, cl, hN, hcl, -, hcase⟩ := srvParse_ok hp
  have hz : requested ce .transferSize (2 ^ 64 - 1) = none := by
    cases hr : requested ce .transferSize (2 ^ 64 - 1) with
    | none => rfl
    | some n =>
      obtain ⟨t', h1, h2, h3⟩ := (requested_says _ _ _ _).mp hr
      rw [ht] at h1
      cases h1
      have := hn n h2
      omega
  rcases hN.size with ⟨z1, z2, -⟩ | ⟨n, z1, -⟩
  · rcases hk with ⟨-, rfl, rfl⟩ | ⟨a, g, -⟩
    · rcases hcase with ⟨-, -, rfl, rfl, -⟩ | ⟨l, remote, auth, -, -, -, -, -, -, rfl, rfl, -⟩
      · exact ⟨z2, z1⟩
      · refine ⟨z2, ?_⟩
        rw [srvKeys_other _ _ _ _ _ ⟨by simp, by simp, by simp⟩]
        simp [Exts.insert, z1]
    · cases g
  · rw [hz] at z1
    cases z1

/-- **C66**, in terms of numerals: a client which starts either was given a port, any numeral below 65536 after the last colon, or no colon at all, and then the
port is 69. -/
theorem c66_endpoint_text {S} {a : ClientArgs} {write : Bool} {files : Bytes → Option Bytes} {signer : Bytes → AuthKey S} {lookup : Bytes → Nat → List Ep} {c : ClientSetup S}
    (h : a.config write files signer lookup = some c) :
    (∃ host t port, a.endpoint = host ++ 58 :: t ∧ Numeral t port ∧ port < 65536 ∧ (lookup host port).head? = some c.cfg.endpoint) ∨
    ((58 : UInt8) ∉ a.endpoint ∧ (lookup a.endpoint 69).head? = some c.cfg.endpoint) := by
  by_cases hc : (58 : UInt8) ∈ a.endpoint
  · refine .inl ?_
    unfold ClientArgs.config at h
    split at h
    · simp only [Option.bind_eq_bind, Option.bind_eq_some_iff, Option.pure_def] at h
      obtain ⟨ls, -, le, -, level, hl, rk, hrk, pk, hpk, addrs, haddr, ep, hep, ek, hek, h⟩ := h
      simp only [Option.some.injEq] at h
      subst h
      obtain ⟨r, p, he, hp⟩ : ∃ r p, a.endpoint.reverse = p ++ 58 :: r ∧ (58 : UInt8) ∉ p := by
        have key : ∀ l : Bytes, (58 : UInt8) ∈ l → ∃ r p, l = p ++ 58 :: r ∧ (58 : UInt8) ∉ p := by
          intro l
          induction l with
          | nil => intro h; cases h
          | cons x l ih =>
            intro h
            by_cases hx : x = 58
            · exact ⟨l, [], by rw [hx]; rfl, by simp⟩
            · rcases List.mem_cons.mp h with h | h
              · exact absurd h.symm hx
              · obtain ⟨r, p, e1, e2⟩ := ih h
                exact ⟨r, x :: p, by rw [e1]; rfl, by simp only [List.mem_cons, not_or]; exact ⟨Ne.symm hx, e2⟩⟩
        exact key _ (List.mem_reverse.mpr hc)
      have he' : a.endpoint = r.reverse ++ 58 :: p.reverse := by
        rw [← List.reverse_reverse a.endpoint, he]
        simp
      have hn : resolvedName a.endpoint = a.endpoint := by rw [resolvedName, if_pos hc]
      rw [hn, he'] at haddr
      unfold toSocketAddrs at haddr
      rw [lastColon_host _ _ (by simpa using hp)] at haddr
      simp only [Option.map_eq_some_iff] at haddr
      obtain ⟨port, g1, g2⟩ := haddr
      obtain ⟨g3, g4⟩ := (numeral_iff _ _ _).mp g1
      exact ⟨r.reverse, p.reverse, port, he', g3, by omega, by rw [g2]; exact hep⟩
    · cases h
  · exact .inr ⟨hc, (c66_endpoint h).2 hc⟩

/-- **C78**, too large, in terms of numerals: the error names the number which the request's text means, in its plain form. -/
theorem c78_size_text_partial {S} (v : Srv S) (t : Nat) (dg : Bytes) (io : NewIo) (h : (v.newConn t dg io).result = .error .size) :
    ∃ write r n s b, v.requestOf dg = some (write, r) ∧ Says r.exts .transferSize (2 ^ 64 - 1) n ∧ v.cfg.maxFileSize < n ∧ Printed s n ∧
      v.answers dg io = [b] ∧ Brings none b .diskFull (ascii "Invalid file size received " ++ s) := by
  obtain ⟨write, r, n, b, h1, h2, h3, h4, h5⟩ := c78_size_partial v t dg io h
  exact ⟨write, r, n, decimal n, b, h1, (requested_says _ _ _ _).mp h2, h3, (printed_iff _ _).mp rfl, h4, h5⟩

/-! ### Examples -/

/-- A limit of 100 bytes: `0101` is refused, `18446744073709551616` is not. -/
example : (match srvNegotiate (S := ⟨fun _ => true, fun _ _ _ => true⟩) ⟨1000, 4, 2000, 100, false, none, none, false⟩ [] .none
      (Exts.empty.insert .transferSize (ascii "0101")) .write with | .ok _ => false | .error _ => true) = true ∧
    (match srvNegotiate (S := ⟨fun _ => true, fun _ _ _ => true⟩) ⟨1000, 4, 2000, 100, false, none, none, false⟩ [] .none
      (Exts.empty.insert .transferSize (ascii "18446744073709551616")) .write with | .ok (_, o, _) => o.fileSize.isNone | .error _ => false) = true := by
  constructor <;> decide +kernel

end Tftp

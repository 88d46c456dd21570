import Verif.Rates
import Verif.ReaderProps
/-
C45: the counters of the rate control and the reader in one upload (src/client/sender.rs:207-237): each block handed out by the reader is sent and counted. Nothing
here models further code.
-/
namespace Tftp
open Spec

/-- Specification: the sizes of all blocks handed out, repeated ones included. -/
def Spec.handedOut : List Event → Nat
  | [] => 0
  | ⟨_, .out (.block b), _⟩ :: rest => b.data.length + handedOut rest
  | _ :: rest => handedOut rest

theorem slice_length (file : Bytes) (lo hi : Nat) : (slice file lo hi).length = min hi file.length - lo := by
  simp [slice]

/-- Who confirms only what was handed out has been handed the whole file when the sender is finished. -/
theorem handedOut_ge (file : Bytes) (bs W : Nat) (hbs : 0 < bs) (tr : List Event) : ∀ acked last emitted, TraceOk file bs W acked last emitted tr →
    Legit acked emitted tr → acked ≤ emitted → last ≤ emitted → (∃ e ∈ tr, e.finished = true) →
    file.length ≤ handedOut tr + min (emitted * bs) file.length := by
  have whole : ∀ n, file.length / bs + 1 ≤ n → file.length ≤ n * bs := by
    intro n hn
    have h1 := Nat.div_add_mod file.length bs
    have h2 := Nat.mod_lt file.length hbs
    have h3 : (file.length / bs + 1) * bs ≤ n * bs := Nat.mul_le_mul_right _ hn
    rw [Nat.add_mul, Nat.mul_comm (file.length / bs)] at h3
    omega
  induction tr with
  | nil => rintro _ _ _ _ _ _ _ ⟨_, h, _⟩; cases h
  | cons e tr ih =>
    intro acked last emitted ht hl h1 h2 hf
    obtain ⟨call, obs, fin⟩ := e
    cases call with
    | next retry fail =>
      obtain ⟨hfin, hrest⟩ := ht
      obtain ⟨-, hl⟩ := hl
      by_cases hd : fin = true
      · have := whole emitted (by have := hfin.mp hd; omega)
        omega
      · have hf' : ∃ e ∈ tr, e.finished = true := by
          obtain ⟨e, he, hx⟩ := hf
          rcases List.mem_cons.mp he with rfl | he
          · exact absurd hx hd
          · exact ⟨e, he, hx⟩
        rcases hrest with ⟨rfl, -, hr⟩ | ⟨rfl, -, -, -, hr⟩ | ⟨i, rfl, -, -, -, hi, hr⟩
        · exact ih _ _ _ hr hl h1 h2 hf'
        · exact ih _ _ _ hr hl h1 h2 hf'
        · have := ih _ _ _ hr hl (by omega) (by omega) hf'
          have hi' : i ≤ emitted + 1 := by split at hi <;> omega
          simp only [handedOut, slice_length]
          by_cases hle : i ≤ emitted
          · rw [Nat.max_eq_left hle] at this
            omega
          · have he : i = emitted + 1 := by omega
            subst he
            rw [Nat.max_eq_right (by omega)] at this
            rw [Nat.add_sub_cancel]
            omega
    | ack t =>
      obtain ⟨t1, t2, hl⟩ := hl
      obtain ⟨hobs, hfin, hr⟩ := ht t1 t2
      have hmax : max acked t ≤ emitted := by omega
      by_cases hd : fin = true
      · have := whole emitted (by have := hfin.mp hd; omega)
        omega
      · have hf' : ∃ e ∈ tr, e.finished = true := by
          obtain ⟨e, he, hx⟩ := hf
          rcases List.mem_cons.mp he with rfl | he
          · exact absurd hx hd
          · exact ⟨e, he, hx⟩
        have := ih _ _ _ hr hl hmax (by split <;> omega) hf'
        subst hobs
        exact this

/-- **C45**, finding: no upload of 4 GiB or more gets to its end in a build with overflow checks. With any reader, any history of calls and any acknowledgements
of blocks handed out: when the reader is finished (only then the upload succeeds), so many bytes have been counted as sent that the counter has overflowed
before. `ops`: the operations on the rate control; every block handed out is counted there, src/client/sender.rs:233 (the socket takes every packet). -/
theorem c45_large_upload (k : Kind) (file : Bytes) (bs W cap : Nat) (hbs : 0 < bs) (hcap : bs ≤ cap) (hW : W ≤ 10000) (hk : k = .single → W = 1)
    (calls : List Call) (hl : Legit 0 0 (Reader.trace cap (Reader.new k file bs W) calls))
    (hf : ∃ e ∈ Reader.trace cap (Reader.new k file bs W) calls, e.finished = true) (hbig : 2 ^ 32 ≤ file.length)
    (blockSize : Nat) (ops : List RateOp) (hops : handedOut (Reader.trace cap (Reader.new k file bs W) calls) ≤ (ops.map bytesSent).sum) :
    Rate.new.run blockSize ops = none := by
  have h := handedOut_ge file bs W hbs _ 0 0 0 (trace_ok_of_sim cap file bs W hbs hcap hW calls _ _ _ (ReaderSim.init k file bs W hk) Mapper.inv_new)
    hl (Nat.le_refl _) (Nat.le_refl _) hf
  refine c45_sent_overflow blockSize ops ?_
  unfold maxU32
  omega

/-- The hypotheses of `c45_large_upload` but the size are met by a complete upload of three bytes in blocks of two; a block is repeated. -/
example : Legit 0 0 (Reader.trace 2 (Reader.new .multi [1, 2, 3] 2 2) [.next false false, .next false false, .next true false, .ack 2]) ∧
    (∃ e ∈ Reader.trace 2 (Reader.new .multi [1, 2, 3] 2 2) [.next false false, .next false false, .next true false, .ack 2], e.finished = true) ∧
    handedOut (Reader.trace 2 (Reader.new .multi [1, 2, 3] 2 2) [.next false false, .next false false, .next true false, .ack 2]) = 5 := by
  refine ⟨?_, ⟨⟨.ack 2, .freed (some 3), true⟩, by decide +kernel, rfl⟩, by decide +kernel⟩
  have h : Reader.trace 2 (Reader.new .multi [1, 2, 3] 2 2) [.next false false, .next false false, .next true false, .ack 2] =
      [⟨.next false false, .out (.block ⟨1, 1, [1, 2], false⟩), false⟩, ⟨.next false false, .out (.block ⟨2, 2, [3], false⟩), false⟩,
        ⟨.next true false, .out (.block ⟨1, 1, [1, 2], true⟩), false⟩, ⟨.ack 2, .freed (some 3), true⟩] := by decide +kernel
  rw [h]
  simp [Legit]

end Tftp

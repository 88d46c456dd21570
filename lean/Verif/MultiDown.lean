import Verif.Multi
import Verif.ToyMulti
/-
C50: the multi threaded server after its main socket has failed (src/server/multi_thread.rs:122): the main loop has returned, so nobody is admitted any more.
(What the process does then with the threads which are still running is not part of the library.)
-/
namespace Tftp

/-- A server whose main loop has returned makes no connections and answers nobody who has none. -/
theorem down_step {S} (v : Srv S) {s : MSt} (h : s.up = false) (e : MEv) :
    (v.mstep s e).1.up = false ∧ (∀ a, a ∈ (v.mstep s e).1.addrs → a ∈ s.addrs) ∧ ∀ x ∈ (v.mstep s e).2, x.1 ∈ s.addrs := by
  cases e with
  | main t a dg io => simp only [Srv.mstep, h, Bool.false_eq_true, ↓reduceIte]; exact ⟨trivial, fun _ h => h, by simp⟩
  | idle => simp only [Srv.mstep, h, Bool.false_eq_true, ↓reduceIte]; exact ⟨trivial, fun _ h => h, by simp⟩
  | broken => exact ⟨rfl, fun _ h => h, by simp [Srv.mstep]⟩
  | thread a e =>
    refine ⟨h, ?_, ?_⟩
    · intro b hb
      simp only [Srv.mstep, MSt.addrs, List.map_map, List.mem_map] at hb ⊢
      obtain ⟨x, hx, rfl⟩ := hb
      refine ⟨x, hx, ?_⟩
      simp only [Function.comp]
      split
      · assumption
      · rfl
    · intro x hx
      simp only [Srv.mstep, List.mem_flatMap] at hx
      obtain ⟨y, hy, hx⟩ := hx
      split at hx
      · obtain ⟨d, _, rfl⟩ := List.mem_map.1 hx
        exact List.mem_map.2 ⟨y, hy, by assumption⟩
      · cases hx

/-- **C50**: after the main socket of the multi threaded server has failed, an address which had no connection gets none and hears nothing, whatever happens. -/
theorem c50_broken_socket {S} (v : Srv S) (before after : List MEv) (a : Addr) (ha : a ∉ (v.mrun MSt.init before).1.addrs) :
    a ∉ (v.mrun MSt.init (before ++ .broken :: after)).1.addrs ∧
    (v.mrun MSt.init (before ++ .broken :: after)).2.filter (fun x => x.1 == a) = (v.mrun MSt.init before).2.filter (fun x => x.1 == a) := by
  have app : ∀ (s : MSt) (xs ys : List MEv), v.mrun s (xs ++ ys) = ((v.mrun (v.mrun s xs).1 ys).1, (v.mrun s xs).2 ++ (v.mrun (v.mrun s xs).1 ys).2) := by
    intro s xs ys
    induction xs generalizing s with
    | nil => simp [Srv.mrun]
    | cons e r ih => simp only [List.cons_append, Srv.mrun]; rw [ih]; simp
  have rest : ∀ (s : MSt), s.up = false → a ∉ s.addrs → a ∉ (v.mrun s after).1.addrs ∧ (v.mrun s after).2.filter (fun x => x.1 == a) = [] := by
    induction after with
    | nil => exact fun s _ h => ⟨h, rfl⟩
    | cons e r ih =>
      intro s hs h
      obtain ⟨d1, d2, d3⟩ := down_step v hs e
      obtain ⟨i1, i2⟩ := ih (v.mstep s e).1 d1 fun hn => h (d2 a hn)
      refine ⟨i1, ?_⟩
      simp only [Srv.mrun, List.filter_append, i2, List.append_nil]
      rw [List.filter_eq_nil_iff]
      intro x hx
      have := d3 x hx
      simp only [beq_iff_eq]
      exact fun he => h (he ▸ this)
  rw [app]
  obtain ⟨r1, r2⟩ := rest (v.mstep (v.mrun MSt.init before).1 .broken).1 rfl ha
  simp only [Srv.mrun, Srv.mstep] at r1 r2 ⊢
  exact ⟨r1, by rw [List.filter_append, List.nil_append, r2, List.append_nil]⟩

namespace Toy

/-- A connection which exists goes on; a new client is not heard. -/
example : (srv.mrun MSt.init [.main 0 1 rrq io, .broken, .main 1 2 rrq io]).1.addrs = [1] ∧
    (srv.mrun MSt.init [.main 0 1 rrq io, .main 1 2 rrq io]).1.addrs = [2, 1] ∧ 2 ∉ (srv.mrun MSt.init [.main 0 1 rrq io]).1.addrs := by decide +kernel

end Toy
end Tftp

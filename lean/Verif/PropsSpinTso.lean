import Verif.SpinTso

/-
Property C65: the spinlock protects the data on machines that delay the stores of a thread in order; it does not when
the stores may reach the memory in another order.
-/

namespace MpcAlloc
namespace SpinTso

/-- C65, mutual exclusion: at most one thread has the lock. -/
theorem C65_mutual_exclusion {τ : T} (h : Reach true τ) {t u : Nat} (ht : τ.pc t = .crit) (hu : τ.pc u = .crit) :
    t = u := by
  rcases h.inv with ⟨_, h2, _⟩ | ⟨_, w, _, h3, _⟩ | ⟨_, _, _, h2, _⟩
  · exact absurd ht (h2 t).2
  · have h4 : ∀ x, τ.pc x = .crit → x = w := fun x hx => Classical.byContradiction fun hne => (h3 x hne).1 hx
    rw [h4 t ht, h4 u hu]
  · exact absurd ht (h2 t)

/-- C65: the thread with the lock reads everywhere the value last stored, by itself or by a thread that had the lock
before. -/
theorem C65_reads_last {τ : T} (h : Reach true τ) {t : Nat} (ht : τ.pc t = .crit) (a : Nat) :
    view (τ.buf t) τ.mem a = τ.last a := by
  rcases h.inv with ⟨_, h2, _⟩ | ⟨_, w, _, h3, _, h5⟩ | ⟨_, _, _, h2, _⟩
  · exact absurd ht (h2 t).2
  · have h4 : t = w := Classical.byContradiction fun hne => (h3 t hne).1 ht
    rw [h4, h5]
  · exact absurd ht (h2 t)

/-- C65: the swap that takes the lock finds all the earlier stores in the memory. -/
theorem C65_hand_over {τ τ' : T} (h : Reach true τ) (st : Step true τ τ') {t : Nat} (h0 : τ.pc t ≠ .crit)
    (h1 : τ'.pc t = .crit) : (∀ u, τ.pc u ≠ .crit) ∧ (∀ u, τ.buf u = []) ∧ τ.mem = τ.last := by
  have key : τ.word = 0 := by
    cases st with
    | @call u b hp =>
      simp only [upd] at h1
      split at h1
      · cases h1
      · exact absurd h1 h0
    | @swap u b hp =>
      simp only [upd] at h1
      split at h1
      · split at h1
        · assumption
        · cases b <;> simp at h1
      · exact absurd h1 h0
    | @spin u hp =>
      simp only [upd] at h1
      split at h1
      · split at h1 <;> cases h1
      · exact absurd h1 h0
    | store a v hp => exact absurd h1 h0
    | @unlock u hp =>
      simp only [upd] at h1
      split at h1
      · cases h1
      · exact absurd h1 h0
    | @flush u l1 l2 w hb hl => cases w <;> exact absurd h1 h0
  rcases h.inv with ⟨_, h2, h3⟩ | ⟨h1, _⟩ | ⟨h1, _⟩
  · exact ⟨fun u => (h2 u).2, fun u => (h2 u).1, h3⟩
  · omega
  · omega

/-- C65, progress: when no thread has the lock and the stores have reached the memory, the next swap takes the lock, and
the next load of a thread that spins ends its wait. -/
theorem C65_acquires {τ : T} (h : Reach true τ) (hf : ∀ u, τ.pc u ≠ .crit) (hb : ∀ u, τ.buf u = []) (t : Nat) :
    (∀ b, τ.pc t = .swap b → ∃ τ', Step true τ τ' ∧ τ'.pc t = .crit) ∧
    (τ.pc t = .load → ∃ τ', Step true τ τ' ∧ τ'.pc t = .swap false) := by
  have hw : τ.word = 0 := by
    rcases h.inv with ⟨h1, _⟩ | ⟨_, w, h2, _⟩ | ⟨_, w, l, _, _, h4, _⟩
    · exact h1
    · exact absurd h2 (hf w)
    · rw [hb w] at h4; cases l <;> cases h4
  refine ⟨fun b hp => ⟨_, Step.swap hp, by simp only [upd_same, hw, if_true]⟩, fun hp => ⟨_, Step.spin hp, ?_⟩⟩
  simp only [upd_same]
  rw [if_pos (by rw [hb t, hw]; rfl)]

/-- C65: a thread that has released the lock waits for nobody else to give it back: when no thread has the lock, its own
store buffer is the only one that is not empty, and emptying it frees the lock word. -/
theorem C65_released {τ : T} (h : Reach true τ) (hf : ∀ u, τ.pc u ≠ .crit) (h1 : τ.word ≠ 0) :
    ∃ w l, τ.buf w = l ++ [.unlock] ∧ W.unlock ∉ l ∧ ∀ u, u ≠ w → τ.buf u = [] := by
  rcases h.inv with ⟨h2, _⟩ | ⟨_, w, h2, _⟩ | ⟨_, w, l, _, h3, h4, h5, _⟩
  · exact absurd h2 h1
  · exact absurd h2 (hf w)
  · exact ⟨w, l, h4, h5, h3⟩

/-- C65 is false when the store of `sctk_alloc_internal_spinlock_unlock` (line 66), which has no barrier, may reach the
memory before the stores into the data: thread 2 has the lock and reads 0 where thread 1, which had the lock before,
has stored 7. -/
theorem C65_refuted_order : ∃ τ, Reach false τ ∧ τ.pc 2 = .crit ∧ τ.last 5 = 7 ∧ view (τ.buf 2) τ.mem 5 = 0 := by
  have h := Reach.init (fifo := false) (fun _ => 0)
  have h := h.step (Step.call (t := 1) false rfl)
  have h := h.step (Step.swap (t := 1) rfl)
  have h := h.step (Step.store (t := 1) 5 7 rfl)
  have h := h.step (Step.unlock (t := 1) rfl)
  have h := h.step (Step.flush (t := 1) (l1 := [.data 5 7]) (w := .unlock) (l2 := []) rfl (by simp))
  have h := h.step (Step.call (t := 2) false rfl)
  have h := h.step (Step.swap (t := 2) rfl)
  exact ⟨_, h, rfl, rfl, rfl⟩

/-- The hypotheses of the theorems: thread 1 has stored and released, its stores are delayed, thread 2 spins. -/
example : ∃ τ, Reach true τ ∧ τ.pc 2 = .load ∧ τ.buf 1 = [.data 5 7, .unlock] ∧ τ.word ≠ 0 := by
  have h := Reach.init (fifo := true) (fun _ => 0)
  have h := h.step (Step.call (t := 1) false rfl)
  have h := h.step (Step.swap (t := 1) rfl)
  have h := h.step (Step.store (t := 1) 5 7 rfl)
  have h := h.step (Step.call (t := 2) false rfl)
  have h := h.step (Step.swap (t := 2) rfl)
  have h := h.step (Step.unlock (t := 1) rfl)
  exact ⟨_, h, rfl, rfl, by show (1 : Nat) ≠ 0; omega⟩

/-- Thread 2 takes the lock after thread 1 and has a delayed store of its own. -/
example : ∃ τ, Reach true τ ∧ τ.pc 2 = .crit ∧ τ.buf 2 = [.data 6 8] ∧ τ.mem 5 = 7 := by
  have h := Reach.init (fifo := true) (fun _ => 0)
  have h := h.step (Step.call (t := 1) false rfl)
  have h := h.step (Step.swap (t := 1) rfl)
  have h := h.step (Step.store (t := 1) 5 7 rfl)
  have h := h.step (Step.unlock (t := 1) rfl)
  have h := h.step (Step.flush (t := 1) (l1 := []) (w := .data 5 7) (l2 := [.unlock]) rfl (by simp))
  have h := h.step (Step.flush (t := 1) (l1 := []) (w := .unlock) (l2 := []) rfl (by simp))
  have h := h.step (Step.call (t := 2) true rfl)
  have h := h.step (Step.swap (t := 2) rfl)
  have h := h.step (Step.store (t := 2) 6 8 rfl)
  exact ⟨_, h, rfl, rfl, rfl⟩

end SpinTso
end MpcAlloc

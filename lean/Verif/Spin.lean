import Verif.Basic

/-
The internal spinlock (/repo/src/sctk_alloc_internal_spinlock.h) as steps of threads that interleave, one atomic
access to the lock word at a time, and property C28. Memory accesses are sequentially consistent (trusted, see
DESIGN.md).
-/

namespace MpcAlloc
namespace Spin

/-- Where a thread is.
* `out`: in none of the functions, without the lock;
* `swap false`: at `OPA_swap_int` of `sctk_alloc_internal_spinlock_lock` (line 56);
* `load`: at `OPA_load_int` of its inner loop (line 59); `sctk_alloc_cpu_relax` (line 58) touches no memory and is
  left out;
* `swap true`: at `OPA_swap_int` of `sctk_alloc_internal_spinlock_trylock` (line 72);
* `crit`: `lock` returned, or `trylock` returned 0; the next step is the store of
  `sctk_alloc_internal_spinlock_unlock` (line 66). -/
inductive PC
  | out
  | swap (try_ : Bool)
  | load
  | crit
deriving DecidableEq, Repr

/-- The lock word and the position of every thread. -/
structure S where
  word : Nat
  pc : Nat → PC

def setPc (f : Nat → PC) (t : Nat) (p : PC) : Nat → PC := fun u => if u = t then p else f u

/-- One step of thread `t`; `try_` chooses the function called by a thread that is `out`. A thread only unlocks when
it has the lock. Sources: sctk_alloc_internal_spinlock.h 54-61 (lock), 64-67 (unlock), 70-73 (trylock). -/
def step (s : S) (t : Nat) (try_ : Bool) : S :=
  match s.pc t with
  | .out => ⟨s.word, setPc s.pc t (.swap try_)⟩
  | .swap b => ⟨1, setPc s.pc t (if s.word = 0 then .crit else if b then .out else .load)⟩
  | .load => ⟨s.word, setPc s.pc t (if s.word = 0 then .swap false else .load)⟩
  | .crit => ⟨0, setPc s.pc t .out⟩

/-- After `sctk_alloc_internal_spinlock_init` (lines 48-51). -/
def init : S := ⟨0, fun _ => .out⟩

/-- The steps of a schedule: the thread that moves and, if it is `out`, what it calls. -/
def run (s : S) (sched : List (Nat × Bool)) : S := sched.foldl (fun s a => step s a.1 a.2) s

/-- The lock word is 1 exactly when one thread holds the lock. -/
def Inv (s : S) : Prop :=
  (s.word = 0 ∧ ∀ t, s.pc t ≠ .crit) ∨ (s.word = 1 ∧ ∃ t, s.pc t = .crit ∧ ∀ u, s.pc u = .crit → u = t)

theorem step_inv {s : S} (h : Inv s) (t : Nat) (b : Bool) : Inv (step s t b) := by
  unfold step
  cases hp : s.pc t with
  | out =>
    rcases h with ⟨h0, h1⟩ | ⟨h0, w, h1, h2⟩
    · exact Or.inl ⟨h0, fun u => by simp only [setPc]; split <;> simp_all⟩
    · refine Or.inr ⟨h0, w, ?_, fun u => ?_⟩
      · simp only [setPc]; split <;> simp_all
      · simp only [setPc]; split <;> simp_all
  | swap c =>
    rcases h with ⟨h0, h1⟩ | ⟨h0, w, h1, h2⟩
    · refine Or.inr ⟨rfl, t, by simp [setPc, h0], fun u => ?_⟩
      simp only [setPc]; split
      · exact fun _ => by assumption
      · exact fun hu => absurd hu (h1 u)
    · have hw : w ≠ t := by rintro rfl; simp_all
      refine Or.inr ⟨rfl, w, by simp [setPc, hw, h1], fun u => ?_⟩
      simp only [setPc]; split
      · rw [h0]; cases c <;> simp
      · exact h2 u
  | load =>
    rcases h with ⟨h0, h1⟩ | ⟨h0, w, h1, h2⟩
    · exact Or.inl ⟨h0, fun u => by simp only [setPc]; split <;> simp_all⟩
    · have hw : w ≠ t := by rintro rfl; simp_all
      refine Or.inr ⟨h0, w, by simp [setPc, hw, h1], fun u => ?_⟩
      simp only [setPc]; split <;> simp_all
  | crit =>
    rcases h with ⟨h0, h1⟩ | ⟨h0, w, h1, h2⟩
    · exact absurd hp (h1 t)
    · refine Or.inl ⟨rfl, fun u => ?_⟩
      simp only [setPc]; split
      · simp
      · intro hu
        have e1 := h2 u hu
        have e2 := h2 t hp
        simp_all

theorem run_inv (sched : List (Nat × Bool)) : ∀ {s : S}, Inv s → Inv (run s sched) := by
  induction sched with
  | nil => exact fun h => h
  | cons a l ih => exact fun h => ih (step_inv h a.1 a.2)

theorem init_inv : Inv init := Or.inl ⟨rfl, fun _ => by simp [init]⟩

/-- C28, mutual exclusion: after any interleaving of any number of threads at most one of them is between a
successful lock or trylock and its unlock. -/
theorem C28_mutual_exclusion (sched : List (Nat × Bool)) {t u : Nat}
    (ht : (run init sched).pc t = .crit) (hu : (run init sched).pc u = .crit) : t = u := by
  rcases run_inv sched init_inv with ⟨_, h⟩ | ⟨_, w, _, h⟩
  · exact absurd ht (h t)
  · rw [h t ht, h u hu]

/-- C28, progress: when no thread holds the lock, a thread in `lock` that runs alone has it after at most two steps;
and a thread at the swap of `trylock` has it after one. -/
theorem C28_acquires (sched : List (Nat × Bool)) {t : Nat} (b : Bool)
    (free : ∀ u, (run init sched).pc u ≠ .crit) :
    (∀ c, (run init sched).pc t = .swap c → (step (run init sched) t b).pc t = .crit) ∧
    ((run init sched).pc t = .load → (step (step (run init sched) t b) t b).pc t = .crit) := by
  have hw : (run init sched).word = 0 := by
    rcases run_inv sched init_inv with ⟨h, _⟩ | ⟨_, w, h, _⟩
    · exact h
    · exact absurd h (free w)
  generalize run init sched = s at *
  constructor
  · intro c hc
    unfold step
    simp [hc, hw, setPc]
  · intro hc
    have h1 : step s t b = ⟨s.word, setPc s.pc t (.swap false)⟩ := by
      unfold step; simp [hc, hw]
    rw [h1]
    unfold step
    simp [hw, setPc]

/-- C28: a trylock that fails, and only such a trylock, leaves the thread without the lock while another thread holds
it: the swap of `t` gives the lock to `t` if and only if nobody had it. -/
theorem C28_swap_result (sched : List (Nat × Bool)) {t : Nat} {c b : Bool} (hc : (run init sched).pc t = .swap c) :
    (step (run init sched) t b).pc t = .crit ↔ ∀ u, (run init sched).pc u ≠ .crit := by
  constructor
  · intro h u hu
    have hw : (run init sched).word = 1 := by
      rcases run_inv sched init_inv with ⟨_, h⟩ | ⟨h, _⟩
      · exact absurd hu (h u)
      · exact h
    unfold step at h
    rw [hc] at h
    simp only [setPc, hw] at h
    cases c <;> simp at h
  · exact fun h => (C28_acquires sched b h).1 c hc

/-- Three threads: thread 0 has the lock, thread 1 spins, thread 2 is about to try. -/
example : (run init [(0, false), (1, false), (0, false), (1, false), (2, true)]).pc 0 = .crit ∧
    (run init [(0, false), (1, false), (0, false), (1, false), (2, true)]).pc 1 = .load ∧
    (run init [(0, false), (1, false), (0, false), (1, false), (2, true)]).pc 2 = .swap true := by
  decide

/-- The hypotheses of `C28_acquires` and `C28_swap_result` are met after an unlock. -/
example : (run init [(0, false), (1, false), (0, false), (1, false), (0, false)]).pc 1 = .load ∧
    ∀ u, (run init [(0, false), (1, false), (0, false), (1, false), (0, false)]).pc u ≠ .crit := by
  refine ⟨by decide, ?_⟩
  rcases run_inv [(0, false), (1, false), (0, false), (1, false), (0, false)] init_inv with ⟨_, h⟩ | ⟨h, _⟩
  · exact h
  · exact absurd h (by decide)

end Spin
end MpcAlloc

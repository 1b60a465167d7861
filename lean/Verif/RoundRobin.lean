import Verif.Basic
import Mathlib.Data.Nat.ModEq

/-
`sctk_alloc_posix_source_round_robin` (/repo/src/sctk_alloc_posix.c 299-313) as steps of interleaving threads, and
property C34.
-/

namespace MpcAlloc
namespace RoundRobin

/-- Where a thread is in the function.
* `out`: not in it;
* `test`: at the test `cnt == -1` (line 303);
* `initLock`, `initCnt`: at the two statements of the branch (lines 304, 305);
* `acquire`: in the loop of `sctk_alloc_spinlock_lock` (line 308; one step per `OPA_swap_int`, the reads of the inner
  loop of the spinlock change nothing and are left out);
* `read`: at `res = cnt` (line 309); `write r`: at `cnt = (cnt + 1) % n` (line 310); `unlock r`: at line 311, after
  which `r` is returned. -/
inductive PC
  | out
  | test
  | initLock
  | initCnt
  | acquire
  | read
  | write (r : Int)
  | unlock (r : Int)
deriving DecidableEq, Repr

/-- The static variables `lock` and `cnt`, the threads, and (not in the code) the values selected so far, in the order
of the selections. -/
structure S where
  lock : Nat
  cnt : Int
  pc : Nat → PC
  log : List Int

/-- Static initialisation, lines 300-301. -/
def init : S := ⟨0, -1, fun _ => .out, []⟩

def setPc (f : Nat → PC) (t : Nat) (p : PC) : Nat → PC := fun u => if u = t then p else f u

/-- One step of thread `t`, with `n` NUMA nodes (`mpcalloc_topology_get_numa_node_count()`). No node is a division by
zero. -/
def step (n : Nat) (s : S) (t : Nat) : Outcome S :=
  match s.pc t with
  | .out => .ok { s with pc := setPc s.pc t .test }
  | .test => .ok { s with pc := setPc s.pc t (if s.cnt = -1 then .initLock else .acquire) }
  | .initLock => .ok { s with lock := 0, pc := setPc s.pc t .initCnt }
  | .initCnt => .ok { s with cnt := 0, pc := setPc s.pc t .acquire }
  | .acquire => .ok { s with lock := 1, pc := setPc s.pc t (if s.lock = 0 then .read else .acquire) }
  | .read => .ok { s with pc := setPc s.pc t (.write s.cnt), log := s.log ++ [s.cnt] }
  | .write r => if n = 0 then .ub else .ok { s with cnt := (s.cnt + 1) % n, pc := setPc s.pc t (.unlock r) }
  | .unlock _ => .ok { s with lock := 0, pc := setPc s.pc t .out }

/-- The steps of a schedule: the list of the threads that move. -/
def run (n : Nat) : S → List Nat → Outcome S
  | s, [] => .ok s
  | s, t :: l => do
    let s ← step n s t
    run n s l

theorem run_append {n : Nat} (l1 l2 : List Nat) : ∀ {s : S},
    run n s (l1 ++ l2) = (do let s ← run n s l1; run n s l2) := by
  induction l1 with
  | nil => intro s; rfl
  | cons a l ih =>
    intro s
    simp only [List.cons_append, run]
    cases h : step n s a with
    | ok s' => simp only [Outcome.ok_bind]; exact ih
    | _ => rfl

/-- The lock is held. -/
def Holds (p : PC) : Prop := p = .read ∨ (∃ r, p = .write r) ∨ ∃ r, p = .unlock r

/-- After the initialisation: nobody initialises any more, one holder at most, and `cnt` follows the number of
selections (it lags behind between `read` and `write`). -/
structure Inv (n : Nat) (s : S) : Prop where
  noinit : ∀ t, s.pc t ≠ .initLock ∧ s.pc t ≠ .initCnt
  free : s.lock = 0 → ∀ t, ¬ Holds (s.pc t)
  uniq : ∀ t u, Holds (s.pc t) → Holds (s.pc u) → t = u
  cnt : (∃ t r, s.pc t = .write r ∧ (s.cnt + 1) % n = ((s.log.length % n : Nat) : Int) ∧ 0 ≤ s.cnt) ∨
    (s.cnt = ((s.log.length % n : Nat) : Int) ∧ ∀ t r, s.pc t ≠ .write r)
  log : ∀ k v, s.log[k]? = some v → v = ((k % n : Nat) : Int)

theorem step_inv {n : Nat} (hn : 0 < n) {s : S} (I : Inv n s) (t : Nat) :
    ∃ s', step n s t = .ok s' ∧ Inv n s' := by
  have hcnt0 : 0 ≤ s.cnt := by
    rcases I.cnt with ⟨_, _, _, _, h⟩ | ⟨h, _⟩ <;> omega
  have nh : ∀ p, ¬ Holds p ↔ p ≠ .read ∧ (∀ r, p ≠ .write r) ∧ ∀ r, p ≠ .unlock r := by
    intro p; unfold Holds; simp
  -- a step of a thread that does not hold the lock and does not get it
  have idle : ∀ (p : PC) (lk : Nat), ¬ Holds p → p ≠ .initLock → p ≠ .initCnt → ¬ Holds (s.pc t) →
      (lk = 0 → s.lock = 0) → Inv n { s with lock := lk, pc := setPc s.pc t p } := by
    intro p lk h1 h2 h3 h4 hlk
    have hold : ∀ u, Holds (setPc s.pc t p u) → Holds (s.pc u) := by
      intro u; unfold setPc; split
      · exact fun h => absurd h h1
      · exact id
    refine ⟨fun u => ?_, fun h u hu => I.free (hlk h) u (hold u hu),
      fun u v hu hv => I.uniq u v (hold u hu) (hold v hv), ?_, I.log⟩
    · unfold setPc; simp only; split
      · exact ⟨h2, h3⟩
      · exact I.noinit u
    · rcases I.cnt with ⟨u, r, hu, h⟩ | ⟨h, hno⟩
      · refine Or.inl ⟨u, r, ?_, h⟩
        have : u ≠ t := by rintro rfl; exact h4 (by unfold Holds; exact Or.inr (Or.inl ⟨r, hu⟩))
        simp [setPc, this, hu]
      · refine Or.inr ⟨h, fun u r => ?_⟩
        unfold setPc; simp only; split
        · exact ((nh p).1 h1).2.1 r
        · exact hno u r
  -- the others do not hold the lock when `t` does
  have other : Holds (s.pc t) → ∀ u, u ≠ t → ¬ Holds (s.pc u) := fun h u hu h' => hu (I.uniq u t h' h)
  unfold step
  cases hp : s.pc t with
  | out => exact ⟨_, rfl, idle .test s.lock (by simp [Holds]) (by simp) (by simp) (by simp [Holds, hp]) id⟩
  | test =>
    simp only
    rw [if_neg (by omega)]
    exact ⟨_, rfl, idle .acquire s.lock (by simp [Holds]) (by simp) (by simp) (by simp [Holds, hp]) id⟩
  | initLock => exact absurd hp (I.noinit t).1
  | initCnt => exact absurd hp (I.noinit t).2
  | acquire =>
    simp only
    by_cases hl : s.lock = 0
    · rw [if_pos hl]
      have hfree := I.free hl
      have hold : ∀ u, Holds (setPc s.pc t .read u) → u = t := by
        intro u; unfold setPc; split
        · exact fun _ => by assumption
        · exact fun h => absurd h (hfree u)
      refine ⟨_, rfl, fun u => ?_, fun h => absurd h Nat.one_ne_zero, fun u v hu hv => (hold u hu).trans (hold v hv).symm, ?_, I.log⟩
      · unfold setPc; simp only; split
        · simp
        · exact I.noinit u
      · rcases I.cnt with ⟨u, r, hu, h⟩ | ⟨h, hno⟩
        · exact absurd (by unfold Holds; exact Or.inr (Or.inl ⟨r, hu⟩)) (hfree u)
        · refine Or.inr ⟨h, fun u r => ?_⟩
          unfold setPc; simp only; split
          · simp
          · exact hno u r
    · rw [if_neg hl]
      exact ⟨_, rfl, idle .acquire 1 (by simp [Holds]) (by simp) (by simp) (by simp [Holds, hp]) (by simp)⟩
  | read =>
    have ht : Holds (s.pc t) := by rw [hp]; exact Or.inl rfl
    have ho := other ht
    have hold : ∀ u, Holds (setPc s.pc t (.write s.cnt) u) → u = t := by
      intro u; unfold setPc; split
      · exact fun _ => by assumption
      · rename_i hu; exact fun h => absurd h (ho u hu)
    have hc : s.cnt = ((s.log.length % n : Nat) : Int) := by
      rcases I.cnt with ⟨u, r, hu, h⟩ | ⟨h, hno⟩
      · have : u = t := I.uniq u t (by rw [hu]; exact Or.inr (Or.inl ⟨r, rfl⟩)) ht
        subst this; rw [hp] at hu; cases hu
      · exact h
    refine ⟨_, rfl, fun u => ?_, fun h u hu => I.free h t ht, fun u v hu hv => (hold u hu).trans (hold v hv).symm,
      Or.inl ⟨t, s.cnt, by simp [setPc], ?_, hcnt0⟩, ?_⟩
    · unfold setPc; simp only; split
      · simp
      · exact I.noinit u
    · simp only [List.length_append, List.length_singleton]
      rw [hc]
      have : (((s.log.length % n : Nat) : Int) + 1) % (n : Int) = (((s.log.length % n + 1) % n : Nat) : Int) := by
        push_cast; rfl
      rw [this, Nat.mod_add_mod]
    · intro k v
      simp only
      rw [List.getElem?_append]
      split
      · exact I.log k v
      · rename_i hk
        intro h
        by_cases hk2 : k = s.log.length
        · subst hk2
          simp at h
          rw [← h]; exact hc
        · rw [List.getElem?_eq_none (by simp; omega)] at h; cases h
  | write r =>
    have ht : Holds (s.pc t) := by rw [hp]; exact Or.inr (Or.inl ⟨r, rfl⟩)
    have ho := other ht
    have hold : ∀ u, Holds (setPc s.pc t (.unlock r) u) → u = t := by
      intro u; unfold setPc; split
      · exact fun _ => by assumption
      · rename_i hu; exact fun h => absurd h (ho u hu)
    have hc : (s.cnt + 1) % n = ((s.log.length % n : Nat) : Int) := by
      rcases I.cnt with ⟨u, r, hu, h, _⟩ | ⟨h, hno⟩
      · exact h
      · exact absurd hp (hno t r)
    simp only
    rw [if_neg (by omega)]
    refine ⟨_, rfl, fun u => ?_, fun h u hu => I.free h t ht, fun u v hu hv => (hold u hu).trans (hold v hv).symm,
      Or.inr ⟨hc, fun u r' => ?_⟩, I.log⟩
    · unfold setPc; simp only; split
      · simp
      · exact I.noinit u
    · unfold setPc; simp only; split
      · simp
      · rename_i hu; exact ((nh _).1 (ho u hu)).2.1 r'
  | unlock r =>
    have ht : Holds (s.pc t) := by rw [hp]; exact Or.inr (Or.inr ⟨r, rfl⟩)
    have ho := other ht
    have hold : ∀ u, ¬ Holds (setPc s.pc t .out u) := by
      intro u; unfold setPc; split
      · simp [Holds]
      · rename_i hu; exact ho u hu
    refine ⟨_, rfl, fun u => ?_, fun _ => hold, fun u v hu => absurd hu (hold u), ?_, I.log⟩
    · unfold setPc; simp only; split
      · simp
      · exact I.noinit u
    · rcases I.cnt with ⟨u, r', hu, h⟩ | ⟨h, hno⟩
      · have : u = t := I.uniq u t (by rw [hu]; exact Or.inr (Or.inl ⟨r', rfl⟩)) ht
        subst this; rw [hp] at hu; cases hu
      · refine Or.inr ⟨h, fun u r' => ?_⟩
        unfold setPc; simp only; split
        · simp
        · exact hno u r'

theorem run_inv {n : Nat} (hn : 0 < n) (l : List Nat) : ∀ {s : S}, Inv n s → ∃ s', run n s l = .ok s' ∧ Inv n s' := by
  induction l with
  | nil => exact fun {s} h => ⟨s, rfl, h⟩
  | cons t l ih =>
    intro s h
    obtain ⟨s1, e1, h1⟩ := step_inv hn h t
    obtain ⟨s2, e2, h2⟩ := ih h1
    exact ⟨s2, by simp only [run, e1, Outcome.ok_bind]; exact e2, h2⟩

/-- The first call, by thread `t`, alone. -/
theorem first_call {n : Nat} (hn : 0 < n) (t : Nat) :
    ∃ s, run n init (List.replicate 8 t) = .ok s ∧ Inv n s ∧ s.log = [0] := by
  refine ⟨⟨0, (0 + 1) % (n : Int), setPc (setPc (setPc (setPc (setPc (setPc (setPc (setPc (fun _ => .out) t .test)
    t .initLock) t .initCnt) t .acquire) t .read) t (.write 0)) t (.unlock 0)) t .out, [0]⟩, ?_, ?_, rfl⟩
  · have h0 : n ≠ 0 := by omega
    simp [List.replicate, run, step, init, setPc, h0]
  · have hpc : ∀ u, setPc (setPc (setPc (setPc (setPc (setPc (setPc (setPc (fun _ => .out) t .test)
      t .initLock) t .initCnt) t .acquire) t .read) t (.write 0)) t (.unlock 0)) t .out u = .out := by
      intro u; unfold setPc; split <;> rfl
    refine ⟨fun u => ?_, fun _ u => ?_, fun u v hu => ?_, Or.inr ⟨?_, fun u r => ?_⟩, ?_⟩
    · simp only [hpc]; simp
    · simp only [hpc]; simp [Holds]
    · simp only [hpc] at hu; simp [Holds] at hu
    · simp only [List.length_singleton]; push_cast; rfl
    · simp only [hpc]; simp
    · intro k v hk
      match k, hk with
      | 0, hk => simp at hk; rw [← hk]; simp

/-- C34: with at least one node, when the first call is over before the other ones start, any interleaving of any
number of threads ends without undefined behaviour and the `k`-th selected source is `k` modulo the number of
nodes, so that each source is selected exactly once in any `n` selections in a row. Missing: two threads in the
first call at the same time (`C34_refuted`). -/
theorem C34_round_robin_partial {n : Nat} (hn : 0 < n) (t : Nat) (sched : List Nat) :
    ∃ s, run n init (List.replicate 8 t ++ sched) = .ok s ∧
      (∀ k v, s.log[k]? = some v → v = ((k % n : Nat) : Int)) ∧
      (∀ i, i + n ≤ s.log.length → ∀ v, v < n →
        ∃ j, (j < n ∧ s.log[i + j]? = some (v : Int)) ∧
          ∀ j', j' < n → s.log[i + j']? = some (v : Int) → j' = j) := by
  obtain ⟨s1, e1, I1, _⟩ := first_call hn t
  obtain ⟨s2, e2, I2⟩ := run_inv hn sched I1
  refine ⟨s2, by rw [run_append, e1, Outcome.ok_bind]; exact e2, I2.log, ?_⟩
  intro i hi v hv
  have at' : ∀ k, k < s2.log.length → s2.log[k]? = some ((k % n : Nat) : Int) := by
    intro k hk
    have := List.getElem?_eq_getElem hk
    rw [this, I2.log k _ this]
  have hil : i % n < n := Nat.mod_lt _ hn
  -- the position of `v` in the window
  let j := if i % n ≤ v then v - i % n else v + n - i % n
  have hj : j < n ∧ (i + j) % n = v := by
    simp only [j]
    split
    · rename_i hle
      refine ⟨by omega, ?_⟩
      rw [Nat.add_mod, Nat.mod_eq_of_lt (show v - i % n < n by omega)]
      rw [show i % n + (v - i % n) = v by omega, Nat.mod_eq_of_lt hv]
    · rename_i hle
      refine ⟨by omega, ?_⟩
      rw [Nat.add_mod, Nat.mod_eq_of_lt (show v + n - i % n < n by omega)]
      rw [show i % n + (v + n - i % n) = v + n by omega, Nat.add_mod_right, Nat.mod_eq_of_lt hv]
  refine ⟨j, ⟨hj.1, by rw [at' _ (by omega), hj.2]⟩, fun j' hj' h' => ?_⟩
  rw [at' _ (by omega)] at h'
  have h2 : (i + j') % n = v := by
    have := Option.some.inj h'
    exact_mod_cast this
  have h3 : (i + j') % n = (i + j) % n := by rw [h2, hj.2]
  have e3 := Nat.mod_eq_of_lt hj'
  have e4 := Nat.mod_eq_of_lt hj.1
  have h4 : j' ≡ j [MOD n] := Nat.ModEq.add_left_cancel' i h3
  unfold Nat.ModEq at h4
  omega

/-- Two threads after the first call: the log grows. -/
example : ∃ s, run 2 init (List.replicate 8 0 ++ [1, 0, 1, 0, 0, 1, 0, 0, 0, 1, 1, 1, 1]) = .ok s ∧ s.log = [0, 1, 0] :=
  ⟨_, rfl, rfl⟩

/-- C34 is false when two threads make the first call together: both see `cnt == -1`, and the second initialisation
undoes the first selection. With two nodes, two calls in a row select the node 0. -/
theorem C34_refuted : ∃ s, run 2 init ([0, 0, 1, 1] ++ List.replicate 6 0 ++ List.replicate 6 1) = .ok s ∧
    s.log = [0, 0] ∧ s.pc 0 = .out ∧ s.pc 1 = .out := ⟨_, rfl, rfl, rfl, rfl⟩

/-- Worse: the second initialisation resets the lock while the first thread holds it, and two threads are in the
critical section. -/
theorem C34_two_in_critical_section : ∃ s, run 2 init [0, 0, 1, 1, 0, 0, 0, 1, 1, 1] = .ok s ∧
    s.pc 0 = .read ∧ s.pc 1 = .read := ⟨_, rfl, rfl, rfl⟩

/-- Without any NUMA node the first call divides by zero. -/
theorem C34_no_node : run 0 init (List.replicate 8 0) = .ub := rfl

end RoundRobin
end MpcAlloc

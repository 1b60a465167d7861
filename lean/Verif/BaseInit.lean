import Verif.Basic
import Mathlib.Data.List.Nodup
import Mathlib.Data.List.Range

/-
Start-up of the process when several threads make their first call (sctk_alloc_posix.c), as steps of interleaving threads,
and property C53. Egg.lean has the same functions for one thread, with the memory they use.
-/

namespace MpcAlloc
namespace BaseInit

/-- Build and machine: with hwloc or not, the number of NUMA nodes that hwloc reports, and the option
`numa_round_robin`. -/
structure P where
  hwloc : Bool
  n : Nat
  rr : Bool

/-- Index of the source that is set first: `SCTK_DEFAULT_NUMA_MM_SOURCE_ID` (128) with hwloc (sctk_alloc_posix.c 243), 0
without (202). -/
def P.dflt (p : P) : Nat := if p.hwloc then 128 else 0

/-- Number of the sources that `sctk_alloc_posix_mmsrc_numa_init_phase_numa` sets, from index 0 on, 248-282. -/
def P.more (p : P) : Nat := if p.hwloc then max p.n 1 else 0

/-- `sctk_global_base_init`, 65-75. -/
inductive St
  | none
  | egg
  | default
  | numa
deriving DecidableEq

/-- Where a thread is in `sctk_alloc_posix_create_new_tls_chain`, 483-514.
* `test`, `lock`, `test2`: in `sctk_alloc_posix_base_init`, at the test without the mutex (397), at the mutex (401), at the
  test under it (404);
* `egg`: at the store of line 440 (with what is before: the egg chain); `src`: at line 452; `dflt`: at line 463;
* `numa i`: in the phase of the NUMA nodes, at the source `i`; `fin`: at line 281;
* `unlock`: at line 475;
* `pick`: in `sctk_alloc_posix_get_local_mm_source` with the argument `true` (320-367);
* `got i`: with the source of index `i`. -/
inductive PC
  | out
  | test
  | lock
  | test2
  | egg
  | src
  | dflt
  | numa (i : Nat)
  | fin
  | unlock
  | pick
  | got (i : Nat)
deriving DecidableEq

/-- The state of the start-up, the mutex, the indices of `sctk_global_memory_source` that were set, latest first, the
counter of `sctk_alloc_posix_source_round_robin` (each call is one step; see RoundRobin.lean), the threads. -/
structure S where
  st : St
  mutex : Bool
  set : List Nat
  cnt : Nat
  pc : Nat → PC

def start : S := ⟨.none, false, [], 0, fun _ => .out⟩

def S.go (s : S) (t : Nat) (c : PC) : S := { s with pc := fun u => if u = t then c else s.pc u }

/-- `sctk_global_base_init >= SCTK_ALLOC_POSIX_INIT_DEFAULT`. -/
def St.up : St → Bool
  | .default => true
  | .numa => true
  | _ => false

/-- `sctk_alloc_posix_get_local_mm_source`, 320-367: the node is the default one since the argument is true; the condition
of line 344 is always true, so the option alone decides whether the round robin replaces it. The counter is taken modulo
the number of nodes (310). The test of line 360 reads a field of the source. -/
def pickSource (p : P) (s : S) : Outcome (Nat × Nat) := do
  if p.hwloc ∧ p.rr then do
    if p.n = 0 then .ub else
    if s.cnt ∈ s.set then return (s.cnt, (s.cnt + 1) % p.n) else .ub
  else if p.dflt ∈ s.set then return (p.dflt, s.cnt) else .ub

/-- One step of thread `t`. Waiting for the mutex is a step that changes nothing. -/
def step (p : P) (s : S) (t : Nat) : Outcome S :=
  match s.pc t with
  | .out => .ok (s.go t .test)
  | .test => .ok (s.go t (if s.st.up then .pick else .lock))
  | .lock => .ok (if s.mutex then s else { s with mutex := true }.go t .test2)
  | .test2 => .ok (s.go t (if s.st = .none then .egg else .unlock))
  | .egg => .ok ({ s with st := .egg }.go t .src)
  | .src => .ok ({ s with set := p.dflt :: s.set }.go t .dflt)
  | .dflt => if p.hwloc ∧ 128 < p.n then .abort else .ok ({ s with st := .default }.go t (.numa 0))
  | .numa i => .ok (if i < p.more then { s with set := i :: s.set }.go t (.numa (i + 1)) else s.go t .fin)
  | .fin => .ok ({ s with st := .numa }.go t .unlock)
  | .unlock => .ok ({ s with mutex := false }.go t .pick)
  | .pick => do
    let (i, c) ← pickSource p s
    return { s with cnt := c }.go t (.got i)
  | .got _ => .ok s

inductive Reach (p : P) : S → Prop
  | start : Reach p start
  | step {s s' : S} {t : Nat} : Reach p s → step p s t = .ok s' → Reach p s'

/-! ## Invariant -/

/-- The stages at which the mutex is held. -/
def PC.Holds : PC → Prop
  | .test2 => True
  | .egg => True
  | .src => True
  | .dflt => True
  | .numa _ => True
  | .fin => True
  | .unlock => True
  | _ => False

/-- The stages of the initialisation. -/
def PC.Busy : PC → Prop
  | .src => True
  | .dflt => True
  | .numa _ => True
  | .fin => True
  | _ => False

/-- The sources after `i` turns of the loop, latest first. -/
def P.upto (p : P) : Nat → List Nat
  | 0 => [p.dflt]
  | i + 1 => i :: p.upto i

/-- What a thread at a stage knows. -/
def S.Knows (p : P) (s : S) : PC → Prop
  | .egg => s.st = .none
  | .src => s.st = .egg ∧ s.set = []
  | .dflt => s.st = .egg ∧ s.set = p.upto 0
  | .numa i => s.st = .default ∧ s.set = p.upto i ∧ i ≤ p.more
  | .fin => s.st = .default ∧ s.set = p.upto p.more
  | .unlock => s.st = .numa
  | .pick => s.st.up = true
  | .got i => i ∈ s.set
  | _ => True

structure Inv (p : P) (s : S) : Prop where
  knows : ∀ u, s.Knows p (s.pc u)
  free : s.mutex = false → ∀ u, ¬ (s.pc u).Holds
  uniq : ∀ u v, (s.pc u).Holds → (s.pc v).Holds → u = v
  rest : (∀ u, ¬ (s.pc u).Busy) → s.st = .none ∧ s.set = [] ∨ s.st = .numa ∧ s.set = p.upto p.more
  up : s.st.up = true → p.dflt ∈ s.set
  cnt : 0 < p.n → s.cnt < p.n
  nodup : s.set.Nodup

theorem P.mem_upto {p : P} {i x : Nat} : x ∈ p.upto i ↔ x = p.dflt ∨ x < i := by
  induction i with
  | zero => simp [P.upto]
  | succ i ih => simp only [P.upto, List.mem_cons, ih]; omega

/-- While the holder of the mutex is not at a stage of the initialisation, no thread is. -/
theorem Inv.idle {p : P} {s : S} (I : Inv p s) {t : Nat} (hh : (s.pc t).Holds) (hb : ¬ (s.pc t).Busy) :
    ∀ u, ¬ (s.pc u).Busy := by
  intro u hu
  have : (s.pc u).Holds := by revert hu; cases s.pc u <;> first | exact fun _ => trivial | exact False.elim
  have := I.uniq u t this hh
  rw [this] at hu
  exact hb hu

/-- A step of `t` that leaves the initialisation alone. -/
theorem Inv.move {p : P} {s : S} (I : Inv p s) {t : Nat} {mu : Bool} {c : PC} (hk : s.Knows p c)
    (hb : ¬ c.Busy) (hb' : ¬ (s.pc t).Busy) (h0 : mu = false → s.mutex = false ∨ (s.pc t).Holds)
    (h1 : mu = false → ¬ c.Holds) (h2 : c.Holds → (s.pc t).Holds ∨ s.mutex = false) :
    Inv p ({ s with mutex := mu }.go t c) := by
  have pcs : ∀ u, (u = t ∧ ({ s with mutex := mu }.go t c).pc u = c) ∨
      (u ≠ t ∧ ({ s with mutex := mu }.go t c).pc u = s.pc u) := by
    intro u
    by_cases hu : u = t
    · exact Or.inl ⟨hu, if_pos hu⟩
    · exact Or.inr ⟨hu, if_neg hu⟩
  refine ⟨fun u => ?_, fun hm u => ?_, fun u v hu hv => ?_, fun hn => ?_, I.up, I.cnt, I.nodup⟩
  · rcases pcs u with ⟨_, e⟩ | ⟨_, e⟩
    · rw [e]; revert hk; cases c <;> exact id
    · rw [e]; have := I.knows u; revert this; cases s.pc u <;> exact id
  · rcases pcs u with ⟨_, e⟩ | ⟨hu, e⟩ <;> rw [e]
    · exact h1 hm
    · rcases h0 hm with h | h
      · exact I.free h u
      · exact fun hh => hu (I.uniq u t hh h)
  · rcases pcs u with ⟨eu, e⟩ | ⟨hnu, e⟩ <;> rw [e] at hu <;> rcases pcs v with ⟨ev, e'⟩ | ⟨hnv, e'⟩ <;> rw [e'] at hv
    · rw [eu, ev]
    · rcases h2 hu with h | h
      · rw [eu]; exact I.uniq t v h hv
      · exact absurd hv (I.free h v)
    · rcases h2 hv with h | h
      · rw [ev]; exact I.uniq u t hu h
      · exact absurd hu (I.free h u)
    · exact I.uniq u v hu hv
  · refine I.rest fun u hu => ?_
    rcases pcs u with ⟨eu, e⟩ | ⟨hnu, e⟩
    · rw [eu] at hu; exact hb' hu
    · have := hn u
      rw [e] at this
      exact this hu

/-- A step of the initialisation. -/
theorem Inv.init {p : P} {s : S} (I : Inv p s) {t : Nat} {st : St} {set : List Nat} {c : PC} (hh : (s.pc t).Holds)
    (hk : S.Knows p ⟨st, s.mutex, set, s.cnt, s.pc⟩ c) (hc : c.Holds)
    (hrest : ¬ c.Busy → st = .numa ∧ set = p.upto p.more) (hup : s.st.up = true → st.up = true)
    (hset : ∀ x ∈ s.set, x ∈ set) (hup' : st.up = true → p.dflt ∈ set) (hnd : set.Nodup) :
    Inv p ({ s with st := st, set := set }.go t c) := by
  have pcs : ∀ u, (u = t ∧ ({ s with st := st, set := set }.go t c).pc u = c) ∨
      (u ≠ t ∧ ({ s with st := st, set := set }.go t c).pc u = s.pc u ∧ ¬ (s.pc u).Holds) := by
    intro u
    by_cases hu : u = t
    · exact Or.inl ⟨hu, if_pos hu⟩
    · exact Or.inr ⟨hu, if_neg hu, fun h => hu (I.uniq u t h hh)⟩
  refine ⟨fun u => ?_, fun hm u => ?_, fun u v hu hv => ?_, fun hn => ?_, hup', I.cnt, hnd⟩
  · rcases pcs u with ⟨_, e⟩ | ⟨_, e, h⟩
    · rw [e]; revert hk; cases c <;> exact id
    · rw [e]
      have := I.knows u
      revert this h
      cases s.pc u with
      | pick => exact fun _ h => hup h
      | got i => exact fun _ h => hset _ h
      | out => exact fun _ _ => trivial
      | test => exact fun _ _ => trivial
      | lock => exact fun _ _ => trivial
      | _ => exact fun h => absurd trivial h
  · exact absurd hh (I.free hm t)
  · rcases pcs u with ⟨eu, e⟩ | ⟨hnu, e, h⟩ <;> rw [e] at hu
    · rcases pcs v with ⟨ev, e'⟩ | ⟨hnv, e', h'⟩ <;> rw [e'] at hv
      · rw [eu, ev]
      · exact absurd hv h'
    · exact absurd hu h
  · refine Or.inr (hrest ?_)
    have := hn t
    rcases pcs t with ⟨_, e⟩ | ⟨h, _⟩
    · rw [e] at this; exact this
    · exact absurd rfl h

theorem pickSource_ok {p : P} {s : S} {i c : Nat} (h : pickSource p s = .ok (i, c)) :
    i ∈ s.set ∧ (s.cnt < p.n → 0 < p.n → c < p.n) := by
  unfold pickSource at h
  split at h
  · split at h
    · cases h
    · split at h
      · cases h; exact ⟨‹_›, fun _ hn => Nat.mod_lt _ hn⟩
      · cases h
  · split at h
    · cases h; exact ⟨‹_›, fun h _ => h⟩
    · cases h

theorem pickSource_cases (p : P) (s : S) : pickSource p s ≠ .abort ∧ pickSource p s ≠ .diverge := by
  unfold pickSource
  split
  · split
    · simp
    · split <;> exact ⟨fun h => (by cases h), fun h => (by cases h)⟩
  · split <;> exact ⟨fun h => (by cases h), fun h => (by cases h)⟩

/-- A step of a thread keeps the invariant; it fails only when it picks a source. -/
theorem Inv.step {p : P} (hp : p.hwloc = true → p.n ≤ 128) {s : S} (I : Inv p s) (t : Nat) :
    (∃ s', BaseInit.step p s t = .ok s' ∧ Inv p s') ∨ (s.pc t = .pick ∧ pickSource p s = .ub) := by
  have hk := I.knows t
  unfold BaseInit.step
  cases e : s.pc t with
  | out => exact Or.inl ⟨_, rfl, I.move (mu := s.mutex) trivial id (by rw [e]; exact id) Or.inl (fun _ h => h) (fun h => h.elim)⟩
  | test =>
    refine Or.inl ⟨_, rfl, I.move (mu := s.mutex) ?_ ?_ (by rw [e]; exact id) Or.inl ?_ ?_⟩
    · split
      · exact ‹_›
      · trivial
    · split <;> exact id
    · intro _; split <;> exact id
    · intro h; revert h; split <;> exact False.elim
  | lock =>
    refine Or.inl ⟨_, rfl, ?_⟩
    cases hm : s.mutex with
    | true => simp only [if_true]; exact I
    | false =>
      simp only [if_neg Bool.false_ne_true]
      exact I.move (mu := true) trivial id (by rw [e]; exact id) (fun h => absurd h (by simp)) (fun h => absurd h (by simp))
        (fun _ => Or.inr hm)
  | test2 =>
    have hh : (s.pc t).Holds := by rw [e]; trivial
    have hm : s.mutex ≠ false := fun h => I.free h t hh
    have hb : ∀ u, ¬ (s.pc u).Busy := I.idle hh (by rw [e]; exact id)
    refine Or.inl ⟨_, rfl, I.move (mu := s.mutex) ?_ ?_ (by rw [e]; exact id) Or.inl (fun h => absurd h hm)
      (fun _ => Or.inl (by rw [e]; trivial))⟩
    · split
      · exact ‹_›
      · rename_i hn
        rcases I.rest hb with h | h
        · exact absurd h.1 hn
        · exact h.1
    · split <;> exact id
  | egg =>
    rw [e] at hk
    have hh : (s.pc t).Holds := by rw [e]; trivial
    have hb : ∀ u, ¬ (s.pc u).Busy := I.idle hh (by rw [e]; exact id)
    have hs : s.set = [] := by
      rcases I.rest hb with h | h
      · exact h.2
      · rw [show s.st = .none from hk] at h; cases h.1
    exact Or.inl ⟨_, rfl, I.init (st := .egg) (set := s.set) hh ⟨rfl, hs⟩ trivial (fun h => absurd trivial h)
      (fun h => by rw [show s.st = .none from hk] at h; cases h) (fun _ h => h) (fun h => by cases h) I.nodup⟩
  | src =>
    rw [e] at hk
    have hh : (s.pc t).Holds := by rw [e]; trivial
    refine Or.inl ⟨_, rfl, I.init (st := s.st) (set := p.dflt :: s.set) hh ⟨hk.1, by rw [hk.2]; rfl⟩ trivial
      (fun h => absurd trivial h) id (fun _ h => List.mem_cons_of_mem _ h) (fun _ => List.mem_cons_self) ?_⟩
    rw [hk.2]; simp
  | dflt =>
    rw [e] at hk
    have hh : (s.pc t).Holds := by rw [e]; trivial
    simp only
    rw [if_neg (fun h => by have := hp h.1; omega)]
    exact Or.inl ⟨_, rfl, I.init (st := .default) (set := s.set) hh ⟨rfl, hk.2, Nat.zero_le _⟩ trivial
      (fun h => absurd trivial h) (fun _ => rfl) (fun _ h => h) (fun _ => by rw [hk.2]; exact P.mem_upto.2 (Or.inl rfl)) I.nodup⟩
  | numa i =>
    rw [e] at hk
    obtain ⟨h1, h2, h3⟩ := hk
    have hh : (s.pc t).Holds := by rw [e]; trivial
    refine Or.inl ⟨_, rfl, ?_⟩
    split
    · rename_i hi
      refine I.init (st := s.st) (set := i :: s.set) hh ⟨h1, by rw [h2]; rfl, hi⟩ trivial (fun h => absurd trivial h) id
        (fun _ h => List.mem_cons_of_mem _ h) (fun _ => List.mem_cons_of_mem _ (by rw [h2]; exact P.mem_upto.2 (Or.inl rfl))) ?_
      refine List.nodup_cons.2 ⟨?_, I.nodup⟩
      rw [h2, P.mem_upto]
      unfold P.more at hi
      unfold P.dflt
      cases hw : p.hwloc with
      | false => rw [hw] at hi; simp at hi
      | true =>
        have := hp hw
        rw [hw] at hi
        simp only [if_true] at hi ⊢
        omega
    · rename_i hi
      refine I.init (st := s.st) (set := s.set) hh ⟨h1, ?_⟩ trivial (fun h => absurd trivial h) id (fun _ h => h) I.up I.nodup
      rw [show p.more = i by omega]; exact h2
  | fin =>
    rw [e] at hk
    have hh : (s.pc t).Holds := by rw [e]; trivial
    exact Or.inl ⟨_, rfl, I.init (st := .numa) (set := s.set) hh rfl trivial (fun _ => ⟨rfl, hk.2⟩) (fun _ => rfl)
      (fun _ h => h) (fun _ => by rw [hk.2]; exact P.mem_upto.2 (Or.inl rfl)) I.nodup⟩
  | unlock =>
    rw [e] at hk
    have hh : (s.pc t).Holds := by rw [e]; trivial
    refine Or.inl ⟨_, rfl, I.move (mu := false) ?_ id (by rw [e]; exact id) (fun _ => Or.inr hh) (fun _ => id)
      (fun h => h.elim)⟩
    show s.st.up = true
    rw [show s.st = .numa from hk]; rfl
  | pick =>
    simp only
    cases hq : pickSource p s with
    | ok r =>
      obtain ⟨i, c⟩ := r
      obtain ⟨hi, hc⟩ := pickSource_ok hq
      refine Or.inl ⟨_, rfl, ?_⟩
      have I' : Inv p { s with cnt := c } :=
        ⟨fun u => by have := I.knows u; revert this; show S.Knows p s (s.pc u) → S.Knows p _ (s.pc u); cases s.pc u <;> exact id,
          I.free, I.uniq, I.rest, I.up, fun h => hc (I.cnt h) h, I.nodup⟩
      exact I'.move (mu := s.mutex) (t := t) hi id (by show ¬ (s.pc t).Busy; rw [e]; exact id) Or.inl (fun _ => id)
        (fun h => h.elim)
    | ub => exact Or.inr ⟨trivial, rfl⟩
    | abort => exact absurd hq (pickSource_cases p s).1
    | diverge => exact absurd hq (pickSource_cases p s).2
  | got i => exact Or.inl ⟨_, rfl, I⟩

/-- The start. -/
theorem Inv.start (p : P) : Inv p start :=
  ⟨fun _ => trivial, fun _ _ => id, fun _ _ h => h.elim, fun _ => Or.inl ⟨rfl, rfl⟩, (fun h => by cases h), id,
    List.nodup_nil⟩

theorem Reach.inv {p : P} (hp : p.hwloc = true → p.n ≤ 128) {s : S} (h : Reach p s) : Inv p s := by
  induction h with
  | start => exact Inv.start p
  | step _ e ih =>
    rcases ih.step hp _ with ⟨s', e', I⟩ | ⟨e1, e2⟩
    · rw [e] at e'; cases e'; exact I
    · unfold BaseInit.step at e
      rw [e1] at e
      simp only [e2] at e
      cases e

/-! ## Properties -/

/-- A source is set at most once, and a thread that has its source has one that was set. -/
theorem C53_set_partial {p : P} (hp : p.hwloc = true → p.n ≤ 128) {s : S} (h : Reach p s) :
    s.set.Nodup ∧ ∀ t i, s.pc t = .got i → i ∈ s.set :=
  ⟨(h.inv hp).nodup, fun t i e => by have := (h.inv hp).knows t; rw [e] at this; exact this⟩

/-- Without hwloc, or without the round robin, no step of any thread fails, whatever the other threads are doing: each
thread finds the default source. -/
theorem C53_default_partial {p : P} (hp : p.hwloc = true → p.n ≤ 128) (hr : p.hwloc = false ∨ p.rr = false) {s : S}
    (h : Reach p s) (t : Nat) : ∃ s', step p s t = .ok s' ∧ ∀ i, s.pc t = .pick → s'.pc t = .got i → i = p.dflt := by
  have I := h.inv hp
  have hq : s.pc t = .pick → pickSource p s = .ok (p.dflt, s.cnt) := by
    intro e
    have hk := I.knows t
    rw [e] at hk
    unfold pickSource
    rw [if_neg (by rintro ⟨a, b⟩; rcases hr with h | h <;> simp_all), if_pos (I.up hk)]
    rfl
  rcases I.step hp t with ⟨s', e, -⟩ | ⟨e1, e2⟩
  · refine ⟨s', e, fun i hi hg => ?_⟩
    unfold step at e
    rw [hi] at e
    simp only [hq hi] at e
    cases e
    have : PC.got p.dflt = .got i := by rw [← hg]; exact (if_pos rfl).symm
    cases this; rfl
  · rw [hq e1] at e2; cases e2

/-- With the round robin on a machine with at least one node, a step fails only for a thread that picks its source while the
start-up of another is in its NUMA phase. -/
theorem C53_robin_partial {p : P} (hw : p.hwloc = true) (hp : p.n ≤ 128) (hn : 0 < p.n) {s : S} (h : Reach p s)
    (t : Nat) (hd : s.pc t = .pick → s.st ≠ .default) : ∃ s', step p s t = .ok s' := by
  have I := h.inv (fun _ => hp)
  rcases I.step (fun _ => hp) t with ⟨s', e, -⟩ | ⟨e1, e2⟩
  · exact ⟨s', e⟩
  · exfalso
    have hk := I.knows t
    rw [e1] at hk
    have hs : s.st = .numa := by
      have h1 := hd e1
      revert hk h1
      show s.st.up = true → _
      cases s.st <;> simp [St.up]
    have hall : s.set = p.upto p.more := by
      have hb : ∀ u, ¬ (s.pc u).Busy := by
        intro u hu
        have := I.knows u
        revert this hu
        cases s.pc u <;> simp [S.Knows, PC.Busy, hs]
      rcases I.rest hb with h | h
      · rw [hs] at h; cases h.1
      · exact h.2
    have hc := I.cnt hn
    have hm : s.cnt ∈ s.set := by
      rw [hall, P.mem_upto]
      unfold P.more
      rw [hw]
      simp only [if_true]
      omega
    unfold pickSource at e2
    split at e2
    · simp only [if_neg (show ¬ p.n = 0 by omega)] at e2
      cases e2
    · rw [if_pos (I.up hk)] at e2; cases e2

/-- A schedule. -/
def run (p : P) : S → List Nat → Outcome S
  | s, [] => .ok s
  | s, t :: l => do
    let s' ← step p s t
    run p s' l

theorem run_reach {p : P} : ∀ {l : List Nat} {s s' : S}, Reach p s → run p s l = .ok s' → Reach p s'
  | [], _, _, h, e => by cases e; exact h
  | t :: l, s, s', h, e => by
    obtain ⟨s1, e1, e2⟩ := Outcome.bind_eq_ok e
    exact run_reach (h.step e1) e2

def after (p : P) (s : S) (l : List Nat) : S :=
  match run p s l with
  | .ok s => s
  | _ => s

/-- Two nodes, round robin. -/
def two : P := ⟨true, 2, true⟩

/-- Thread 0 has published `SCTK_ALLOC_POSIX_INIT_DEFAULT` and is about to set the source of node 0; thread 1 made its test
then and is to pick its source. -/
def early : S := after two start [0, 0, 0, 0, 0, 0, 0, 1, 1]

theorem early_reach : Reach two early := run_reach (l := [0, 0, 0, 0, 0, 0, 0, 1, 1]) Reach.start rfl

/-- With the round robin, a thread that starts during the NUMA phase of the start-up uses a source that is not set (a null
pointer). -/
theorem C53_refuted : ∃ s, Reach two s ∧ s.st = .default ∧ s.pc 1 = .pick ∧ step two s 1 = .ub :=
  ⟨early, early_reach, rfl, rfl, rfl⟩

/-- A machine with no NUMA node for hwloc: the round robin divides by zero, even with one thread. -/
theorem C53_refuted_nodes : ∃ s, Reach ⟨true, 0, true⟩ s ∧ s.pc 0 = .pick ∧ s.st = .numa ∧
    step ⟨true, 0, true⟩ s 0 = .ub :=
  ⟨after ⟨true, 0, true⟩ start [0, 0, 0, 0, 0, 0, 0, 0, 0, 0, 0],
    run_reach (l := [0, 0, 0, 0, 0, 0, 0, 0, 0, 0, 0]) Reach.start rfl, rfl, rfl, rfl⟩

/-- Two threads start together without hwloc, and one waits for the mutex; both get source 0, set once. -/
def uma : P := ⟨false, 1, true⟩

def both : S := after uma start [0, 1, 0, 1, 0, 1, 0, 0, 0, 0, 0, 0, 0, 0, 1, 1, 1, 1]

example : Reach uma both ∧ both.pc 0 = .got 0 ∧ both.pc 1 = .got 0 ∧ both.set = [0] :=
  ⟨run_reach (l := [0, 1, 0, 1, 0, 1, 0, 0, 0, 0, 0, 0, 0, 0, 1, 1, 1, 1]) Reach.start rfl, rfl, rfl, rfl⟩

/-- Two nodes and the round robin, the second thread after the first: they get the sources of nodes 0 and 1. -/
def turns : S := after two start [0, 0, 0, 0, 0, 0, 0, 0, 0, 0, 0, 0, 0, 1, 1, 1]

example : Reach two turns ∧ turns.pc 0 = .got 0 ∧ turns.pc 1 = .got 1 ∧ turns.set = [1, 0, 128] :=
  ⟨run_reach (l := [0, 0, 0, 0, 0, 0, 0, 0, 0, 0, 0, 0, 0, 1, 1, 1]) Reach.start rfl, rfl, rfl, rfl⟩

end BaseInit
end MpcAlloc

import Verif.NumaMigrate
import Verif.PropsSource

/-
The NUMA part of the light memory source (build with hwloc; /repo/src/sctk_alloc_light_mm_source.c): the node set of a
strict source, and the binding of the memory that it maps or is given. Definitions and lemmas.
-/

namespace MpcAlloc
namespace NumaSource

open NumaStat (pagesOf)
open NumaMigrate (Binding setArea)

/-- The field `nodeset` of the source, sctk_alloc_light_mm_source.h 71-94: NULL, a bitmap with one node, or a pointer to a
bitmap that was freed. -/
inductive NodeSet
  | null
  | node (n : Int)
  | freed

/-- `struct sctk_alloc_mm_source_light` with hwloc: the fields of `Light`, `numa_node`, the flag
`SCTK_ALLOC_MM_SOURCE_LIGHT_NUMA_STRICT` of `mode`, `nodeset`; and the binding of the pages of the process, where -1
stands for the default policy. -/
structure NSrc where
  l : Light
  node : Int
  strict : Bool
  set : NodeSet
  bind : Binding

/-- `sctk_alloc_mm_source_light_init`, sctk_alloc_light_mm_source.c 89-135, with `..._init_nodeset` 70-79. The node is -1 or a
node (line 93 asserts so). -/
def nInit (o : Os) (bind : Binding) (node : Int) (strict : Bool) : NSrc :=
  ⟨Light.init o, node, strict, if strict = true ∧ node ≠ -1 then .node node else .null, bind⟩

/-- `sctk_alloc_force_segment_binding`, 241-266. `ans`: whether hwloc and the kernel do what is asked for; the result of the
call is not looked at. -/
def nForce (ans : Bool) (s : NSrc) (base size : Nat) : Outcome NSrc :=
  match s.set with
  | .null => .ok s
  | .freed => .ub
  | .node n => .ok (if ans then { s with bind := setArea s.bind base size n } else s)

/-- The test in front of the calls of `sctk_alloc_force_segment_binding`, 216-217 and 494-495. -/
def nBind (ans : Bool) (s : NSrc) (base size : Nat) : Outcome NSrc :=
  if s.strict = true ∧ s.node ≠ -1 then nForce ans s base size else .ok s

/-- `sctk_alloc_mm_source_light_mmap_new_segment`, 479-508: see `lightMmap`. The pages of a new mapping have the default
policy. -/
def nMmap (ans : Bool) (m : Mem) (s : NSrc) (size : Nat) : Outcome (Mem × NSrc × Nat) :=
  let (m, o, b) := mmap m s.l.os size
  if b = 0 then .abort
  else if b = W64 - 1 then .ub
  else do
    let s ← nBind ans { s with bind := setArea s.bind b (pageUp size) (-1) } b size
    return (setupMacroBloc m b size, { s with l := { s.l with os := o, counter := s.l.counter + 1 } }, b)

/-- `sctk_alloc_mm_source_light_request_memory`, 432-473: see `lightRequest`. -/
def nRequest (C : Config) (ans : Bool) (m : Mem) (s : NSrc) (size : Nat) : Outcome (Mem × NSrc × Nat) := do
  if size = 0 then return (m, s, 0) else
  let (m, l, b) ← (if lightKeep C s.l size false then lightFind m s.l size else pure (m, s.l, 0))
  if b = 0 then nMmap ans m { s with l := l } size else return (m, { s with l := l }, b)

/-- `sctk_alloc_mm_source_light_free_memory`, 531-561: see `lightFree`. Pages that are no longer mapped have no binding. -/
def nFree (C : Config) (m : Mem) (s : NSrc) (b : Nat) : Outcome (Mem × NSrc) := do
  let m := lightSetupFree m b (hSize m b)
  let bs := readLE m (b + 8) 8
  let (m, s) ← (if lightKeep C s.l bs true then do
      let (m, l) ← lightReg m s.l b
      pure (m, { s with l := l })
    else pure (m, { s with l := { s.l with os := munmap s.l.os b bs }, bind := setArea s.bind b bs (-1) }))
  return (m, { s with l := { s.l with counter := s.l.counter - 1 } })

/-- `sctk_alloc_mm_source_light_insert_segment`, 194-230: see `lightInsert`. -/
def nInsert (ans : Bool) (m : Mem) (s : NSrc) (base size : Nat) : Outcome (Mem × NSrc) :=
  if base = 0 ∨ size = 0 then .ok (m, s)
  else if base % 4096 ≠ 0 then .abort
  else if size % MB2 ≠ 0 then .abort
  else do
    let s ← nBind ans s base size
    let (m, l) ← lightReg (lightSetupFree m base size) s.l base
    return (m, { s with l := l })

/-- `sctk_alloc_mm_source_light_cleanup`, 273-305: see `lightCleanup`. The node set is freed and the pointer to it is kept.
Simplification: the bindings are left as they are. -/
def nCleanup (m : Mem) (s : NSrc) : Outcome NSrc := do
  let l ← lightCleanup m s.l
  match s.set with
  | .null => return { s with l := l }
  | .freed => .ub
  | .node _ => return { s with l := l, set := .freed }

/-! ## Pages -/

theorem mem_pagesOf {a n x : Nat} (ha : a % 4096 = 0) (hn : n % 4096 = 0) :
    x / 4096 ∈ pagesOf a n ↔ a ≤ x ∧ x < a + n := by
  simp only [pagesOf, Finset.mem_image, Finset.mem_range]
  constructor
  · rintro ⟨i, hi, e⟩
    omega
  · rintro ⟨h1, h2⟩
    exact ⟨x - a, by omega, by rw [show a + (x - a) = x by omega]⟩

theorem setArea_in {b : Binding} {a n x : Nat} {k : Int} (ha : a % 4096 = 0) (hn : n % 4096 = 0) (h1 : a ≤ x)
    (h2 : x < a + n) : setArea b a n k (x / 4096) = k := by
  unfold setArea
  rw [if_pos ((mem_pagesOf ha hn).2 ⟨h1, h2⟩)]

theorem setArea_out {b : Binding} {a n x : Nat} {k : Int} (ha : a % 4096 = 0) (hn : n % 4096 = 0)
    (h : x < a ∨ a + n ≤ x) : setArea b a n k (x / 4096) = b (x / 4096) := by
  unfold setArea
  rw [if_neg (fun hm => by have := (mem_pagesOf ha hn).1 hm; omega)]

theorem pageUp_mul {n : Nat} (h : n % 4096 = 0) : pageUp n = n := by unfold pageUp; omega

/-! ## The source without its NUMA part -/

/-- What a call of `nBind` changes. -/
theorem nBind_ok {ans : Bool} {s s' : NSrc} {b n : Nat} (e : nBind ans s b n = .ok s') :
    s'.l = s.l ∧ s'.node = s.node ∧ s'.strict = s.strict ∧ s'.set = s.set ∧
      ((s'.bind = s.bind ∧ ((s.strict = false ∨ s.node = -1 ∨ s.set = .null) ∨ ans = false)) ∨
       ∃ k, s.set = .node k ∧ s.strict = true ∧ s.node ≠ -1 ∧ ans = true ∧ s'.bind = setArea s.bind b n k) := by
  unfold nBind at e
  split at e
  · rename_i h
    unfold nForce at e
    split at e
    · rename_i hs
      cases e
      exact ⟨rfl, rfl, rfl, rfl, .inl ⟨rfl, .inl (.inr (.inr hs))⟩⟩
    · cases e
    · rename_i k hs
      cases ans with
      | true => cases e; exact ⟨rfl, rfl, rfl, rfl, .inr ⟨k, hs, h.1, h.2, rfl, rfl⟩⟩
      | false => cases e; exact ⟨rfl, rfl, rfl, rfl, .inl ⟨rfl, .inr rfl⟩⟩
  · rename_i h
    cases e
    refine ⟨rfl, rfl, rfl, rfl, .inl ⟨rfl, .inl ?_⟩⟩
    by_cases hs : s.strict = true
    · exact .inr (.inl (Classical.not_not.1 fun hn => h ⟨hs, hn⟩))
    · exact .inl (by simpa using hs)

/-- The new binding after a new mapping or an insertion: as before but for the segment. -/
structure Bound (s s' : NSrc) (b0 : Binding) (ans : Bool) (b n : Nat) : Prop where
  node : s'.node = s.node
  strict : s'.strict = s.strict
  set : s'.set = s.set
  bind : (s'.bind = b0 ∧ ((s.strict = false ∨ s.node = -1 ∨ s.set = .null) ∨ ans = false)) ∨
    ∃ k, s.set = .node k ∧ s.strict = true ∧ s.node ≠ -1 ∧ ans = true ∧ s'.bind = setArea b0 b n k

theorem mmap_fresh {m m' : Mem} {o o' : Os} {n b : Nat} (e : mmap m o n = (m', o', b)) (hb : b ≠ W64 - 1) :
    o.Fresh b n := by
  unfold mmap at e
  simp only at e
  split at e
  · rename_i h
    have := (Prod.mk.inj (Prod.mk.inj e).2).2
    rw [← this]; exact h
  · exact absurd (Prod.mk.inj (Prod.mk.inj e).2).2.symm hb

theorem lightFind_os {m m' : Mem} {s s' : Light} {n b : Nat} (e : lightFind m s n = .ok (m', s', b)) : s'.os = s.os := by
  unfold lightFind at e
  split at e
  · cases e
  · obtain ⟨⟨prev, c⟩, _, e⟩ := Outcome.bind_eq_ok e
    simp only at e
    split at e
    · cases e; rfl
    · split at e <;> (cases e; rfl)

theorem lightFind_zero {m m' : Mem} {s s' : Light} {n : Nat} (e : lightFind m s n = .ok (m', s', 0)) :
    m' = m ∧ s' = s := by
  unfold lightFind at e
  split at e
  · cases e
  · obtain ⟨⟨prev, c⟩, _, e⟩ := Outcome.bind_eq_ok e
    simp only at e
    split at e
    · cases e; exact ⟨rfl, rfl⟩
    · rename_i h
      have := Outcome.ok.inj e
      exact absurd (Prod.mk.inj (Prod.mk.inj this).2).2 h

/-- A request: the source without its NUMA part does the same; the bloc is from the cache and no binding changes, or it is
newly mapped and bound. -/
theorem nRequest_ok {C : Config} {ans : Bool} {m m' : Mem} {s s' : NSrc} {n p : Nat} (hn : n ≠ 0)
    (e : nRequest C ans m s n = .ok (m', s', p)) :
    lightRequest C m s.l n = .ok (m', s'.l, p) ∧
      ((s'.l.os = s.l.os ∧ s'.node = s.node ∧ s'.strict = s.strict ∧ s'.set = s.set ∧ s'.bind = s.bind) ∨
       (s.l.os.Fresh p n ∧ Bound s s' (setArea s.bind p (pageUp n) (-1)) ans p n)) := by
  unfold nRequest at e
  rw [if_neg hn] at e
  obtain ⟨⟨m1, l1, b⟩, e1, e⟩ := Outcome.bind_eq_ok e
  simp only at e
  unfold lightRequest
  rw [if_neg hn, e1, Outcome.ok_bind]
  have hos : l1.os = s.l.os := by
    split at e1
    · exact lightFind_os e1
    · cases e1; rfl
  by_cases hb : b = 0
  · subst hb
    rw [if_pos rfl] at e
    simp only
    rw [if_pos trivial]
    unfold nMmap at e
    unfold lightMmap
    simp only at e
    obtain ⟨⟨m2, o2, b2⟩, hm⟩ : ∃ r, r = mmap m1 l1.os n := ⟨_, rfl⟩
    rw [← hm] at e ⊢
    simp only at e ⊢
    split at e
    · cases e
    · rename_i h0
      split at e
      · cases e
      · rename_i h1
        rw [if_neg h0, if_neg h1]
        obtain ⟨s1, e2, e⟩ := Outcome.bind_eq_ok e
        have e := Outcome.ok.inj e
        obtain ⟨c1, c2⟩ := Prod.mk.inj e
        obtain ⟨d2, c3⟩ := Prod.mk.inj c2
        subst c3
        obtain ⟨g1, g2, g3, g4, g5⟩ := nBind_ok e2
        simp only at g1 g2 g3 g4 g5
        rw [← c1, ← d2]
        refine ⟨by simp only [g1], .inr ⟨?_, g2, g3, g4, g5⟩⟩
        rw [← hos]
        exact mmap_fresh hm.symm h1
  · rw [if_neg hb] at e
    simp only
    rw [if_neg hb]
    have e := Outcome.ok.inj e
    obtain ⟨c1, c2⟩ := Prod.mk.inj e
    obtain ⟨c2, c3⟩ := Prod.mk.inj c2
    rw [← c1, ← c2, ← c3]
    exact ⟨rfl, .inl ⟨hos, rfl, rfl, rfl, rfl⟩⟩

/-- A bloc given back: the same without the NUMA part; when it is unmapped its pages are no longer bound. -/
theorem nFree_ok {C : Config} {m m' : Mem} {s s' : NSrc} {b : Nat} (e : nFree C m s b = .ok (m', s')) :
    lightFree C m s.l b = .ok (m', s'.l) ∧ s'.node = s.node ∧ s'.strict = s.strict ∧ s'.set = s.set ∧
      ((lightKeep C s.l (hSize m b % W64) true = true ∧ s'.bind = s.bind) ∨
       (lightKeep C s.l (hSize m b % W64) true = false ∧ s'.bind = setArea s.bind b (hSize m b % W64) (-1))) := by
  unfold nFree at e
  unfold lightFree
  simp only at e ⊢
  have hr : readLE (lightSetupFree m b (hSize m b)) (b + 8) 8 = hSize m b % W64 := by
    unfold lightSetupFree
    rw [readLE_writeLE_same]
  rw [hr] at e ⊢
  split at e
  · rename_i hk
    rw [if_pos hk]
    obtain ⟨⟨m1, s1⟩, e1, e⟩ := Outcome.bind_eq_ok e
    obtain ⟨⟨m2, l2⟩, e2, e1⟩ := Outcome.bind_eq_ok e1
    simp only at e e1
    have e1 := Outcome.ok.inj e1
    have e := Outcome.ok.inj e
    rw [e2, Outcome.ok_bind]
    rw [← (Prod.mk.inj e).1, ← (Prod.mk.inj e).2, ← (Prod.mk.inj e1).1, ← (Prod.mk.inj e1).2]
    exact ⟨rfl, rfl, rfl, rfl, .inl ⟨hk, rfl⟩⟩
  · rename_i hk
    rw [if_neg hk]
    rw [Outcome.pure_eq, Outcome.ok_bind] at e ⊢
    simp only at e ⊢
    have e := Outcome.ok.inj e
    rw [← (Prod.mk.inj e).1, ← (Prod.mk.inj e).2]
    refine ⟨rfl, rfl, rfl, rfl, .inr ⟨Bool.not_eq_true _ ▸ hk, ?_⟩⟩
    simp only

/-- A segment inserted by hand. -/
theorem nInsert_ok {ans : Bool} {m m' : Mem} {s s' : NSrc} {b n : Nat} (hb : b ≠ 0) (hn : n ≠ 0)
    (e : nInsert ans m s b n = .ok (m', s')) :
    lightInsert m s.l b n = .ok (m', s'.l) ∧ Bound s s' s.bind ans b n := by
  unfold nInsert at e
  unfold lightInsert
  rw [if_neg (by omega)] at e ⊢
  split at e
  · cases e
  · rename_i h1
    split at e
    · cases e
    · rename_i h2
      rw [if_neg h1, if_neg h2]
      obtain ⟨s1, e1, e⟩ := Outcome.bind_eq_ok e
      obtain ⟨⟨m2, l2⟩, e2, e⟩ := Outcome.bind_eq_ok e
      simp only at e
      have e := Outcome.ok.inj e
      obtain ⟨g1, g2, g3, g4, g5⟩ := nBind_ok e1
      rw [g1] at e2
      rw [← (Prod.mk.inj e).1, ← (Prod.mk.inj e).2, e2]
      exact ⟨rfl, g2, g3, g4, g5⟩

end NumaSource
end MpcAlloc

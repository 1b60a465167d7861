import Verif.Chain
import Mathlib.Algebra.BigOperators.Group.Finset.Basic
import Mathlib.Data.Finset.Card
import Mathlib.Order.Interval.Finset.Nat

/-
The light memory source (/repo/src/sctk_alloc_light_mm_source.c) and the part of the operating system it uses.
`HAVE_HWLOC` and `HAVE_MREMAP` are undefined: no NUMA binding, no remap.
-/

namespace MpcAlloc

/-! ## The operating system -/

/-- The memory mappings of the process. `used x` tells that the byte at `x` is mapped or otherwise in use; `ans` are
the addresses that the kernel will propose, `k` the number of those already used up. -/
structure Os where
  ans : Nat → Nat
  k : Nat
  used : Nat → Bool

/-- Size of the mapping made for `n` bytes. -/
def pageUp (n : Nat) : Nat := (n + 4095) / 4096 * 4096

/-- The kernel may map `n` bytes at `a`: a page of the lower half of the address space, not NULL, and nothing is
mapped there. -/
def Os.Fresh (o : Os) (a n : Nat) : Prop :=
  0 < n ∧ a ≠ 0 ∧ a % 4096 = 0 ∧ a + pageUp n ≤ 140737488355328 ∧ ∀ i, i < pageUp n → o.used (a + i) = false

instance (o : Os) (a n : Nat) : Decidable (o.Fresh a n) := by unfold Os.Fresh; infer_instance

/-- `sctk_mmap(NULL, n)`, sctk_alloc_common.c 62-72: the next answer if it is an admissible one, else
`MAP_FAILED` = 2^64 - 1 (the code only prints an error). New pages are zero. -/
def mmap (m : Mem) (o : Os) (n : Nat) : Mem × Os × Nat :=
  let a := o.ans o.k
  if o.Fresh a n then
    (fun x => if a ≤ x ∧ x < a + pageUp n then 0 else m x,
      { o with k := o.k + 1, used := fun x => if a ≤ x ∧ x < a + pageUp n then true else o.used x }, a)
  else (m, { o with k := o.k + 1 }, W64 - 1)

/-- `sctk_munmap`, sctk_alloc_common.c 96-99 (`munmap` does nothing on an unaligned address or a zero size). -/
def munmap (o : Os) (a n : Nat) : Os :=
  if a % 4096 = 0 ∧ 0 < n then { o with used := fun x => if a ≤ x ∧ x < a + pageUp n then false else o.used x }
  else o

/-! ## The source -/

/-- `struct sctk_alloc_mm_source_light`, sctk_alloc_light_mm_source.h 71-94, with the operating system.
Simplification: these fields are kept outside of the byte memory, and `counter` does not wrap around at 2^31. -/
structure Light where
  cache : Nat
  size : Nat
  counter : Int
  lock : Bool
  os : Os

/-- `sctk_alloc_mm_source_light_init`, sctk_alloc_light_mm_source.c 89-135. -/
def Light.init (o : Os) : Light := ⟨0, 0, 0, false, o⟩

/-- `sctk_alloc_mm_source_light_keep`, sctk_alloc_light_mm_source.c 54-61. -/
def lightKeep (C : Config) (s : Light) (size : Nat) (forRegister : Bool) : Bool :=
  decide (size ≤ C.keepMax) && (!forRegister || decide (s.size ≤ C.keepMem))

/-- `sctk_alloc_mm_source_light_reg_in_cache`, sctk_alloc_light_mm_source.c 145-158 (`next` at offset 0, `size` at
offset 8). -/
def lightReg (m : Mem) (s : Light) (b : Nat) : Outcome (Mem × Light) :=
  if s.lock then .diverge
  else .ok (writeLE m b 8 s.cache, { s with cache := b, size := add64 s.size (readLE m (b + 8) 8) })

/-- `sctk_alloc_mm_source_light_setup_free_macro_bloc`, sctk_alloc_light_mm_source.c 166-172. -/
def lightSetupFree (m : Mem) (b size : Nat) : Mem := writeLE (writeLE m b 8 0) (b + 8) 8 size

/-- `sctk_alloc_mm_source_light_insert_segment`, sctk_alloc_light_mm_source.c 194-230. -/
def lightInsert (m : Mem) (s : Light) (base size : Nat) : Outcome (Mem × Light) :=
  if base = 0 ∨ size = 0 then .ok (m, s)
  else if base % 4096 ≠ 0 then .abort
  else if size % MB2 ≠ 0 then .abort
  else lightReg (lightSetupFree m base size) s base

/-- The loop of `sctk_alloc_mm_source_light_find_in_cache`, sctk_alloc_light_mm_source.c 381-394: previous bloc and
bloc found (0 if none). -/
def lightFindLoop (m : Mem) (size prev cur : Nat) : Outcome (Nat × Nat) :=
  if cur ≠ 0 ∧ readLE m (cur + 8) 8 ≠ size then lightFindLoop m size cur (readLE m cur 8)
  else .ok (prev, cur)
partial_fixpoint

/-- `sctk_alloc_mm_source_light_find_in_cache`, sctk_alloc_light_mm_source.c 360-426, with
`sctk_alloc_mm_source_light_to_macro_bloc` 311-324. -/
def lightFind (m : Mem) (s : Light) (size : Nat) : Outcome (Mem × Light × Nat) := do
  if s.lock then .diverge else
  let (prev, b) ← lightFindLoop m size 0 s.cache
  if b = 0 then return (m, s, 0)
  else
    let nxt := readLE m b 8
    let bs := readLE m (b + 8) 8
    let (m, s) := if prev = 0 then (m, { s with cache := nxt }) else (writeLE m prev 8 nxt, s)
    let s := { s with counter := s.counter + 1, size := sub64 s.size bs }
    return (writeLE (setupLargeHeader m b bs 0) (b + 16) 8 0, s, b)

/-- `sctk_alloc_mm_source_light_mmap_new_segment`, sctk_alloc_light_mm_source.c 479-508. Only NULL is taken for a
failure of `mmap`; with `MAP_FAILED` the header is written at the end of the address space, where nothing is mapped. -/
def lightMmap (m : Mem) (s : Light) (size : Nat) : Outcome (Mem × Light × Nat) :=
  let (m, o, b) := mmap m s.os size
  if b = 0 then .abort
  else if b = W64 - 1 then .ub
  else .ok (setupMacroBloc m b size, { s with os := o, counter := s.counter + 1 }, b)

/-- `sctk_alloc_mm_source_light_request_memory`, sctk_alloc_light_mm_source.c 432-473. -/
def lightRequest (C : Config) (m : Mem) (s : Light) (size : Nat) : Outcome (Mem × Light × Nat) := do
  if size = 0 then return (m, s, 0) else
  let (m, s, b) ← (if lightKeep C s size false then lightFind m s size else pure (m, s, 0))
  if b = 0 then lightMmap m s size else return (m, s, b)

/-- `sctk_alloc_mm_source_light_free_memory`, sctk_alloc_light_mm_source.c 531-561, with
`sctk_alloc_mm_source_light_to_free_macro_bloc` 180-186 (the network hook, which is only called when one was
registered, is left out). -/
def lightFree (C : Config) (m : Mem) (s : Light) (b : Nat) : Outcome (Mem × Light) := do
  let m := lightSetupFree m b (hSize m b)
  let bs := readLE m (b + 8) 8
  let (m, s) ← (if lightKeep C s bs true then lightReg m s b else pure (m, { s with os := munmap s.os b bs }))
  return (m, { s with counter := s.counter - 1 })

/-- The loop of `sctk_alloc_mm_source_light_cleanup`, sctk_alloc_light_mm_source.c 290-295. -/
def lightCleanLoop (m : Mem) (o : Os) (b : Nat) : Outcome Os :=
  if b = 0 then .ok o
  else lightCleanLoop m (munmap o b (readLE m (b + 8) 8)) (readLE m b 8)
partial_fixpoint

/-- `sctk_alloc_mm_source_light_cleanup`, sctk_alloc_light_mm_source.c 273-305: the lock is never released and the
cache is not emptied. -/
def lightCleanup (m : Mem) (s : Light) : Outcome Light := do
  if s.lock then .diverge else
  if s.counter ≠ 0 then .abort else
  let o ← lightCleanLoop m s.os s.cache
  return { s with lock := true, os := o }

/-- The light source as seen by a chain. -/
def lightSource (C : Config) : Source Light := ⟨fun m s n => lightRequest C m s n, fun m s b => lightFree C m s b⟩

/-! ## The cache -/

/-- The list of the cached blocs `(address, size)` that starts at address `p`. -/
def CacheAt (m : Mem) : Nat → List (Nat × Nat) → Prop
  | p, [] => p = 0
  | p, (a, n) :: l => p = a ∧ a ≠ 0 ∧ readLE m (a + 8) 8 = n ∧ CacheAt m (readLE m a 8) l

theorem CacheAt.unique {m : Mem} : ∀ {p : Nat} {L L' : List (Nat × Nat)}, CacheAt m p L → CacheAt m p L' → L = L'
  | _, [], [], _, _ => rfl
  | _, [], _ :: _, h, h' => absurd (h'.1.symm.trans h) h'.2.1
  | _, _ :: _, [], h, h' => absurd (h.1.symm.trans h') h.2.1
  | _, (a, n) :: l, (a', n') :: l', h, h' => by
    have e : a = a' := h.1.symm.trans h'.1
    subst e
    rw [h.2.2.1.symm.trans h'.2.2.1, CacheAt.unique h.2.2.2 h'.2.2.2]

theorem CacheAt.congr {m m' : Mem} : ∀ {p : Nat} {L : List (Nat × Nat)}, CacheAt m p L →
    (∀ d ∈ L, AgreeOn m m' d.1 16) → CacheAt m' p L
  | _, [], h, _ => h
  | _, (a, n) :: l, h, hd => by
    have h0 := hd (a, n) List.mem_cons_self
    have e1 : readLE m' (a + 8) 8 = readLE m (a + 8) 8 := by
      exact readLE_congr (h0.sub (by simp only; omega) (by simp only; omega))
    have e2 : readLE m' a 8 = readLE m a 8 := by
      exact readLE_congr (h0.sub (by simp only; omega) (by simp only; omega))
    refine ⟨h.1, h.2.1, by rw [e1]; exact h.2.2.1, ?_⟩
    rw [e2]
    exact CacheAt.congr h.2.2.2 (fun d hd' => hd d (List.mem_cons_of_mem _ hd'))

/-- The blocs do not overlap. -/
def Apart (d e : Nat × Nat) : Prop := d.1 + d.2 ≤ e.1 ∨ e.1 + e.2 ≤ d.1

theorem Apart.symm {d e : Nat × Nat} (h : Apart d e) : Apart e d := Or.symm h

/-- Disjoint blocs below `N` have a total size of at most `N`. -/
theorem sum_le_of_apart {N : Nat} (L : List (Nat × Nat)) (hb : ∀ d ∈ L, d.1 + d.2 ≤ N) (hp : L.Pairwise Apart) :
    (L.map Prod.snd).sum ≤ N := by
  have key : ∃ U : Finset Nat, U.card = (L.map Prod.snd).sum ∧ (∀ x, x ∈ U ↔ ∃ d ∈ L, d.1 ≤ x ∧ x < d.1 + d.2) := by
    clear hb
    induction L with
    | nil => exact ⟨∅, by simp, by simp⟩
    | cons d l ih =>
      obtain ⟨U, hU, hm⟩ := ih (List.pairwise_cons.1 hp).2
      refine ⟨Finset.Ico d.1 (d.1 + d.2) ∪ U, ?_, ?_⟩
      · rw [Finset.card_union_of_disjoint, Nat.card_Ico, hU]
        · simp
        · rw [Finset.disjoint_left]
          intro x hx hxu
          obtain ⟨e, he, h1, h2⟩ := (hm x).1 hxu
          rw [Finset.mem_Ico] at hx
          rcases (List.pairwise_cons.1 hp).1 e he with h | h <;> omega
      · intro x
        rw [Finset.mem_union, Finset.mem_Ico, hm]
        simp
  obtain ⟨U, hU, hm⟩ := key
  rw [← hU]
  have : U ⊆ Finset.range N := by
    intro x hx
    obtain ⟨d, hd, h1, h2⟩ := (hm x).1 hx
    have := hb d hd
    rw [Finset.mem_range]; omega
  calc U.card ≤ (Finset.range N).card := Finset.card_le_card this
    _ = N := Finset.card_range N

/-! ## The invariant -/

/-- A bloc: pages of the lower half of the address space, in use. -/
structure Bloc (o : Os) (d : Nat × Nat) : Prop where
  nz : d.1 ≠ 0
  page : d.1 % 4096 = 0
  pos : 0 < d.2
  mul : d.2 % 4096 = 0
  high : d.1 + d.2 ≤ 140737488355328
  used : ∀ x, d.1 ≤ x → x < d.1 + d.2 → o.used x = true

/-- The source with the blocs `O` handed out and the blocs `L` in its cache. -/
structure LInv (m : Mem) (s : Light) (O L : List (Nat × Nat)) : Prop where
  cache : CacheAt m s.cache L
  lock : s.lock = false
  cnt : s.counter = O.length
  size : s.size = (L.map Prod.snd).sum
  good : ∀ d ∈ O ++ L, Bloc s.os d
  apart : (O ++ L).Pairwise Apart
  hdr : ∀ d ∈ O, hSize m d.1 = d.2

theorem LInv.sum_le {m : Mem} {s : Light} {O L : List (Nat × Nat)} (I : LInv m s O L) :
    (L.map Prod.snd).sum ≤ 140737488355328 :=
  sum_le_of_apart L (fun d hd => (I.good d (List.mem_append_right _ hd)).high)
    (List.pairwise_append.1 I.apart).2.1

theorem CacheAt.mem_sum {L : List (Nat × Nat)} {d : Nat × Nat} (h : d ∈ L) : d.2 ≤ (L.map Prod.snd).sum := by
  induction L with
  | nil => cases h
  | cons e l ih =>
    simp only [List.map_cons, List.sum_cons]
    rcases List.mem_cons.1 h with rfl | h
    · omega
    · have := ih h; omega

theorem Light.init_inv (m : Mem) (o : Os) : LInv m (Light.init o) [] [] :=
  ⟨rfl, rfl, rfl, rfl, by simp, by simp, by simp⟩

/-- Two different blocs of a list of disjoint blocs. -/
theorem apart_of_mem {L : List (Nat × Nat)} (h : L.Pairwise Apart) {d e : Nat × Nat} (hd : d ∈ L) (he : e ∈ L)
    (hne : d ≠ e) : Apart d e := by
  induction L with
  | nil => cases hd
  | cons a l ih =>
    obtain ⟨h1, h2⟩ := List.pairwise_cons.1 h
    rcases List.mem_cons.1 hd with hd | hd <;> rcases List.mem_cons.1 he with he | he
    · exact absurd (hd.trans he.symm) hne
    · rw [hd]; exact h1 e he
    · rw [he]; exact (h1 d hd).symm
    · exact ih h2 hd he

/-- The search: it ends, and finds the first bloc of the size. -/
theorem lightFindLoop_ok {m : Mem} {size : Nat} : ∀ (L : List (Nat × Nat)) (prev cur : Nat), CacheAt m cur L →
    (lightFindLoop m size prev cur = .ok ((L.getLast?.map Prod.fst).getD prev, 0) ∧ ∀ d ∈ L, d.2 ≠ size) ∨
    (∃ A b B, L = A ++ (b, size) :: B ∧ lightFindLoop m size prev cur = .ok ((A.getLast?.map Prod.fst).getD prev, b) ∧
      ∀ d ∈ A, d.2 ≠ size) := by
  intro L
  induction L with
  | nil =>
    intro prev cur h
    have h : cur = 0 := h
    left
    rw [lightFindLoop, h]
    simp
  | cons d l ih =>
    obtain ⟨a, n⟩ := d
    intro prev cur h
    obtain ⟨rfl, h0, h1, h2⟩ := h
    by_cases hn : n = size
    · right
      refine ⟨[], cur, l, by rw [hn]; rfl, ?_, by simp⟩
      rw [lightFindLoop, if_neg (by rw [h1]; omega)]
      rfl
    · have hstep : lightFindLoop m size prev cur = lightFindLoop m size cur (readLE m cur 8) := by
        conv => lhs; rw [lightFindLoop]
        rw [if_pos ⟨h0, by rw [h1]; exact hn⟩]
      rw [hstep]
      rcases ih cur _ h2 with ⟨e, hall⟩ | ⟨A, b, B, e1, e2, hall⟩
      · left
        refine ⟨?_, ?_⟩
        · rw [e]
          cases l with
          | nil => rfl
          | cons x l => rw [List.getLast?_cons_cons, List.getLast?_eq_some_getLast (by simp)]; rfl
        · intro d hd
          rcases List.mem_cons.1 hd with rfl | hd
          · exact hn
          · exact hall d hd
      · right
        refine ⟨(cur, n) :: A, b, B, by rw [e1]; rfl, ?_, ?_⟩
        · rw [e2]
          cases A with
          | nil => rfl
          | cons x l => rw [List.getLast?_cons_cons, List.getLast?_eq_some_getLast (by simp)]; rfl
        · intro d hd
          rcases List.mem_cons.1 hd with rfl | hd
          · exact hn
          · exact hall d hd

/-- Unlinking a bloc in the middle of the cache. -/
theorem CacheAt.unlink {m : Mem} {b n : Nat} {B : List (Nat × Nat)} (hB : ∀ d ∈ B, Apart (b, n) d)
    (pre : Nat × Nat) : ∀ (A : List (Nat × Nat)) {p : Nat},
    CacheAt m p (A ++ pre :: (b, n) :: B) → (∀ d ∈ A ++ pre :: (b, n) :: B, 16 ≤ d.2) →
    (A ++ pre :: (b, n) :: B).Pairwise Apart →
    CacheAt (writeLE m pre.1 8 (readLE m b 8)) p (A ++ pre :: B)
  | [], p, h, h16, hp => by
    obtain ⟨pa, pn⟩ := pre
    obtain ⟨rfl, h0, h1, h2⟩ := h
    obtain ⟨h3, h4, h5, h6⟩ := h2
    have ap := (List.pairwise_cons.1 hp).1
    refine ⟨rfl, h0, ?_, ?_⟩
    · rw [readLE_writeLE_other (by simp only; omega)]; exact h1
    · rw [readLE_writeLE_same]
      have : readLE m b 8 % 256 ^ 8 = readLE m b 8 := Nat.mod_eq_of_lt (readLE_lt _ _ _)
      rw [this]
      refine h6.congr (fun d hd => ?_)
      have h7 := ap d (List.mem_cons_of_mem _ hd)
      have h8 := h16 (p, pn) (by simp)
      have h9 := h16 d (by simp [hd])
      intro x hx1 hx2
      apply writeLE_other
      unfold Apart at h7
      simp only at *
      omega
  | (a, k) :: A, p, h, h16, hp => by
    obtain ⟨rfl, h0, h1, h2⟩ := h
    have ap := (List.pairwise_cons.1 hp).1 pre (by simp)
    have s1 := h16 pre (by simp)
    have s2 := h16 (p, k) (by simp)
    unfold Apart at ap
    simp only at ap s2
    refine ⟨rfl, h0, ?_, ?_⟩
    · rw [readLE_writeLE_other (by omega)]; exact h1
    · rw [readLE_writeLE_other (by omega)]
      exact CacheAt.unlink hB pre A h2 (fun d hd => h16 d (by simp at hd ⊢; grind)) (List.pairwise_cons.1 hp).2

theorem setupMacroBloc_other {m : Mem} {b size x : Nat} (h : x < b ∨ b + 24 ≤ x) : setupMacroBloc m b size x = m x := by
  unfold setupMacroBloc
  rw [writeLE_other (by omega), setupLargeHeader_other (by omega)]

theorem setupMacroBloc_info {m : Mem} {b size : Nat} : (setupMacroBloc m b size (b + 15)).toNat = 133 := by
  unfold setupMacroBloc
  rw [writeLE_other (by omega)]
  exact (setupLargeHeader_hdr m b size 0).info

theorem setupMacroBloc_size {m : Mem} {b size : Nat} (h : size < W56) : hSize (setupMacroBloc m b size) b = size := by
  unfold setupMacroBloc hSize
  rw [readLE_writeLE_other (by omega)]
  have := (setupLargeHeader_hdr m b size 0).size
  rw [Nat.mod_eq_of_lt h] at this
  exact this

/-- What a request does when it gets the bloc `p`. -/
structure ReqRel (m : Mem) (s : Light) (O L : List (Nat × Nat)) (size p : Nat) (m' : Mem) (s' : Light)
    (L' : List (Nat × Nat)) : Prop where
  inv : LInv m' s' ((p, size) :: O) L'
  sub : ∀ d ∈ L', d ∈ L
  info : (m' (p + 15)).toNat = 133
  used : ∀ x, s.os.used x = true → s'.os.used x = true
  fresh : (p, size) ∈ L ∨ ∀ x, p ≤ x → x < p + size → s.os.used x = false
  frame : ∀ x, (∀ d ∈ L, x < d.1 ∨ d.1 + d.2 ≤ x) → (x < p ∨ p + size ≤ x) → m' x = m x

theorem perm_apart {O A B : List (Nat × Nat)} {d : Nat × Nat} (h : (O ++ (A ++ d :: B)).Pairwise Apart) :
    ((d :: O) ++ (A ++ B)).Pairwise Apart := by
  have hp : (O ++ (A ++ d :: B)).Perm ((d :: O) ++ (A ++ B)) := by
    calc (O ++ (A ++ d :: B)).Perm (O ++ (d :: (A ++ B))) := List.Perm.append_left _ List.perm_middle
      _ |>.Perm (d :: (O ++ (A ++ B))) := List.perm_middle
  exact (hp.pairwise_iff (fun h => Apart.symm h)).1 h

/-- A bloc of the size is in the cache. -/
theorem lightFind_hit {m : Mem} {s : Light} {O A B : List (Nat × Nat)} {size b : Nat}
    (I : LInv m s O (A ++ (b, size) :: B))
    (e : lightFindLoop m size 0 s.cache = .ok ((A.getLast?.map Prod.fst).getD 0, b)) :
    ∃ m' s', lightFind m s size = .ok (m', s', b) ∧ ReqRel m s O (A ++ (b, size) :: B) size b m' s' (A ++ B) := by
  have hmem : (b, size) ∈ A ++ (b, size) :: B := by simp
  have hb := I.good (b, size) (List.mem_append_right _ hmem)
  have h0 : b ≠ 0 := hb.nz
  have hL := (List.pairwise_append.1 I.apart).2.1
  have hAll : ∀ d ∈ O ++ (A ++ B), Apart (b, size) d := by
    have := perm_apart I.apart
    exact (List.pairwise_cons.1 this).1
  have s16 : ∀ d ∈ O ++ (A ++ (b, size) :: B), 4096 ≤ d.2 := by
    intro d hd
    have h1 := (I.good d hd).pos
    have h2 := (I.good d hd).mul
    omega
  have hsz := s16 (b, size) (List.mem_append_right _ hmem)
  simp only at hsz
  have hhigh := hb.high
  simp only at hhigh
  -- the size field of the bloc
  have hbs : readLE m (b + 8) 8 = size := by
    have : ∀ (A : List (Nat × Nat)) (p : Nat), CacheAt m p (A ++ (b, size) :: B) → readLE m (b + 8) 8 = size := by
      intro A
      induction A with
      | nil => intro p h; exact h.2.2.1
      | cons a A ih => intro p h; exact ih _ h.2.2.2
    exact this A _ I.cache
  unfold lightFind
  rw [if_neg (by rw [I.lock]; simp), e, Outcome.ok_bind]
  simp only
  rw [if_neg h0]
  simp only [hbs]
  -- the new cache
  have hcache : ∃ m1 c1, (if (A.getLast?.map Prod.fst).getD 0 = 0 then (m, { s with cache := readLE m b 8 })
      else (writeLE m ((A.getLast?.map Prod.fst).getD 0) 8 (readLE m b 8), s)) = (m1, { s with cache := c1 }) ∧
      CacheAt m1 c1 (A ++ B) ∧ (∀ x, (∀ d ∈ A, x < d.1 ∨ d.1 + d.2 ≤ x) → m1 x = m x) := by
    rcases List.eq_nil_or_concat A with hA | ⟨A0, pre, hA⟩
    · subst hA
      refine ⟨m, readLE m b 8, rfl, ?_, fun _ _ => rfl⟩
      exact I.cache.2.2.2
    · subst hA
      have hpre := I.good pre (by simp)
      have hl : ((A0.concat pre).getLast?.map Prod.fst).getD 0 = pre.1 := by simp
      rw [hl, if_neg hpre.nz]
      refine ⟨writeLE m pre.1 8 (readLE m b 8), s.cache, rfl, ?_, ?_⟩
      · have hc := I.cache
        simp only [List.concat_eq_append, List.append_assoc, List.cons_append, List.nil_append] at hc hL s16 ⊢
        refine CacheAt.unlink (n := size) ?_ pre A0 hc ?_ hL
        · intro d hd
          exact hAll d (by simp [hd])
        · intro d hd
          have := s16 d (List.mem_append_right _ hd)
          omega
      · intro x hx
        have h1 := hx pre (by simp)
        have h2 := s16 pre (by simp)
        exact writeLE_other (by omega)
  obtain ⟨m1, c1, e1, hc1, hf1⟩ := hcache
  rw [e1]
  simp only
  refine ⟨_, _, rfl, ⟨?_, ?_, ?_, ?_, ?_, ?_, ?_⟩, ?_, ?_, ?_, ?_, ?_⟩
  · -- the cache is not touched by the header of the bloc
    refine hc1.congr (fun d hd => ?_)
    have h1 := hAll d (List.mem_append_right _ hd)
    have h2 := s16 d (List.mem_append_right _ (by simp at hd ⊢; grind))
    intro x hx1 hx2
    unfold Apart at h1
    simp only at h1
    rw [writeLE_other (by omega), setupLargeHeader_other (by omega)]
  · exact I.lock
  · simp only [I.cnt, List.length_cons]; omega
  · simp only
    have h1 := I.sum_le
    rw [I.size]
    simp only [List.map_append, List.map_cons, List.sum_append, List.sum_cons] at h1 ⊢
    rw [sub64_eq (by omega) (by omega)]
    omega
  · intro d hd
    refine I.good d ?_
    simp at hd ⊢; grind
  · exact perm_apart I.apart
  · intro d hd
    rcases List.mem_cons.1 hd with rfl | hd
    · exact setupMacroBloc_size (m := m1) (by omega)
    · have h1 := hAll d (by simp [hd])
      have h2 := s16 d (by simp [hd])
      rw [← I.hdr d hd]
      unfold Apart at h1
      simp only at h1
      unfold hSize
      refine readLE_congr (fun x hx1 hx2 => ?_)
      rw [writeLE_other (by omega), setupLargeHeader_other (by omega)]
      apply hf1
      intro f hf
      have h3 : Apart d f := (List.pairwise_append.1 I.apart).2.2 d hd f (by simp [hf])
      have h4 := s16 f (by simp [hf])
      unfold Apart at h3
      omega
  · intro d hd; simp at hd ⊢; grind
  · exact setupMacroBloc_info (m := m1)
  · exact fun x h => h
  · exact Or.inl hmem
  · intro x hx1 hx2
    rw [writeLE_other (by omega), setupLargeHeader_other (by omega)]
    exact hf1 x (fun d hd => hx1 d (by simp [hd]))

theorem pageUp_eq {n : Nat} (h : n % 4096 = 0) : pageUp n = n := by unfold pageUp; omega

/-- No bloc of the size is in the cache. -/
theorem lightFind_miss {m : Mem} {s : Light} {O L : List (Nat × Nat)} {size q : Nat} (I : LInv m s O L)
    (e : lightFindLoop m size 0 s.cache = .ok (q, 0)) : lightFind m s size = .ok (m, s, 0) := by
  unfold lightFind
  rw [if_neg (by rw [I.lock]; simp), e, Outcome.ok_bind]
  rfl

/-- A mapping: the kernel gives fresh pages, or the header is written to `MAP_FAILED`. -/
theorem lightMmap_ok {m : Mem} {s : Light} {O L : List (Nat × Nat)} {size : Nat} (I : LInv m s O L)
    (hmul : size % 4096 = 0) :
    (¬ s.os.Fresh (s.os.ans s.os.k) size ∧ lightMmap m s size = .ub) ∨
    (s.os.Fresh (s.os.ans s.os.k) size ∧
      ∃ m' s', lightMmap m s size = .ok (m', s', s.os.ans s.os.k) ∧
        ReqRel m s O L size (s.os.ans s.os.k) m' s' L) := by
  by_cases hf : s.os.Fresh (s.os.ans s.os.k) size
  · right
    refine ⟨hf, ?_⟩
    obtain ⟨hpos, hnz, hpage, hhigh, hfree⟩ := hf
    have hf : s.os.Fresh (s.os.ans s.os.k) size := ⟨hpos, hnz, hpage, hhigh, hfree⟩
    generalize ha : s.os.ans s.os.k = a at *
    rw [pageUp_eq hmul] at hhigh hfree
    have hall : ∀ d ∈ O ++ L, Apart (a, size) d := by
      intro d hd
      have g := I.good d hd
      unfold Apart
      simp only
      by_contra hc
      push Not at hc
      have g3 := g.pos
      -- a common byte
      have : s.os.used (max a d.1) = true := g.used _ (by omega) (by omega)
      have h2 := hfree (max a d.1 - a) (by omega)
      rw [show a + (max a d.1 - a) = max a d.1 by omega, this] at h2
      cases h2
    have s16 : ∀ d ∈ O ++ L, 4096 ≤ d.2 := by
      intro d hd
      have h1 := (I.good d hd).pos
      have h2 := (I.good d hd).mul
      omega
    unfold lightMmap mmap
    simp only [ha]
    rw [if_pos hf]
    simp only
    rw [if_neg hnz, if_neg (by omega), pageUp_eq hmul]
    have frame : ∀ x, x < a ∨ a + size ≤ x →
        setupMacroBloc (fun x => if a ≤ x ∧ x < a + size then 0 else m x) a size x = m x := by
      intro x hx
      rw [setupMacroBloc_other (by omega), if_neg (by omega)]
    refine ⟨_, _, rfl, ⟨?_, ?_, ?_, ?_, ?_, ?_, ?_⟩, ?_, ?_, ?_, ?_, ?_⟩
    · refine I.cache.congr (fun d hd x hx1 hx2 => ?_)
      have h1 := hall d (List.mem_append_right _ hd)
      have h2 := s16 d (List.mem_append_right _ hd)
      unfold Apart at h1
      simp only at h1
      exact frame x (by omega)
    · exact I.lock
    · simp only [I.cnt, List.length_cons]; omega
    · exact I.size
    · intro d hd
      rcases List.mem_cons.1 hd with rfl | hd
      · refine ⟨hnz, hpage, hpos, hmul, hhigh, fun x h1 h2 => ?_⟩
        simp only at h1 h2 ⊢
        rw [if_pos ⟨h1, h2⟩]
      · have g := I.good d hd
        refine ⟨g.nz, g.page, g.pos, g.mul, g.high, fun x h1 h2 => ?_⟩
        simp only
        split
        · rfl
        · exact g.used x h1 h2
    · exact List.pairwise_cons.2 ⟨hall, I.apart⟩
    · intro d hd
      rcases List.mem_cons.1 hd with rfl | hd
      · exact setupMacroBloc_size (by omega)
      · rw [← I.hdr d hd]
        have h1 := hall d (by simp [hd])
        have h2 := s16 d (by simp [hd])
        unfold Apart at h1
        simp only at h1
        unfold hSize
        exact readLE_congr (fun x hx1 hx2 => frame x (by omega))
    · exact fun d h => h
    · exact setupMacroBloc_info
    · intro x hx
      simp only
      split
      · rfl
      · exact hx
    · right
      intro x h1 h2
      have := hfree (x - a) (by omega)
      rwa [show a + (x - a) = x by omega] at this
    · intro x _ hx
      exact frame x hx
  · left
    refine ⟨hf, ?_⟩
    unfold lightMmap mmap
    simp only
    rw [if_neg hf]
    rfl

/-- A request of whole pages: the source gives a bloc of its cache, or new pages, or, when the kernel has none, has no
defined behaviour. -/
theorem lightRequest_ok {C : Config} {m : Mem} {s : Light} {O L : List (Nat × Nat)} {size : Nat} (I : LInv m s O L)
    (hpos : 0 < size) (hmul : size % 4096 = 0) :
    (¬ s.os.Fresh (s.os.ans s.os.k) size ∧ (size ≤ C.keepMax → ∀ d ∈ L, d.2 ≠ size) ∧
      lightRequest C m s size = .ub) ∨
    ∃ m' s' p L', lightRequest C m s size = .ok (m', s', p) ∧ ReqRel m s O L size p m' s' L' := by
  unfold lightRequest
  rw [if_neg (by omega)]
  have hmmap : lightKeep C s size false = false ∨ lightFind m s size = .ok (m, s, 0) →
      (do let (m, s, b) ← (if lightKeep C s size false then lightFind m s size else pure (m, s, 0))
          if b = 0 then lightMmap m s size else return (m, s, b)) = lightMmap m s size := by
    intro h
    rcases h with h | h
    · rw [h]; rfl
    · rw [h]
      cases lightKeep C s size false <;> rfl
  cases hk : lightKeep C s size false with
  | false =>
    rw [← hk, hmmap (Or.inl hk)]
    rcases lightMmap_ok I hmul with ⟨h1, h2⟩ | ⟨h1, m', s', e, r⟩
    · left
      refine ⟨h1, fun hle => ?_, h2⟩
      unfold lightKeep at hk
      simp [hle] at hk
    · right
      exact ⟨m', s', _, L, e, r⟩
  | true =>
    rcases lightFindLoop_ok (size := size) L 0 s.cache I.cache with ⟨e, hall⟩ | ⟨A, b, B, e1, e2, hall⟩
    · have hh := hmmap (Or.inr (lightFind_miss I e))
      rw [hk] at hh
      rw [hh]
      rcases lightMmap_ok I hmul with ⟨h1, h2⟩ | ⟨h1, m', s', e, r⟩
      · left
        exact ⟨h1, fun _ => hall, h2⟩
      · right
        exact ⟨m', s', _, L, e, r⟩
    · right
      subst e1
      obtain ⟨m', s', e, r⟩ := lightFind_hit I e2
      have hb := (I.good (b, size) (by simp)).nz
      simp only at hb
      refine ⟨m', s', b, A ++ B, ?_, r⟩
      rw [if_pos rfl, e, Outcome.ok_bind]
      simp only
      rw [if_neg hb]
      rfl

/-- Registering a bloc whose size is written. -/
theorem lightReg_ok {m : Mem} {s : Light} {O L : List (Nat × Nat)} {b size : Nat} (I : LInv m s O L)
    (hb : Bloc s.os (b, size)) (ha : ∀ d ∈ O ++ L, Apart (b, size) d) (hs : readLE m (b + 8) 8 = size) :
    ∃ m' s', lightReg m s b = .ok (m', s') ∧ LInv m' s' O ((b, size) :: L) ∧ s'.os = s.os ∧
      (∀ x, x < b ∨ b + 8 ≤ x → m' x = m x) := by
  have hap : ((b, size) :: (O ++ L)).Pairwise Apart := List.pairwise_cons.2 ⟨ha, I.apart⟩
  have hap' : (O ++ (b, size) :: L).Pairwise Apart :=
    (List.perm_middle.symm.pairwise_iff (fun h => Apart.symm h)).1 hap
  have hgood : ∀ d ∈ O ++ (b, size) :: L, Bloc s.os d := by
    intro d hd
    have : d = (b, size) ∨ d ∈ O ++ L := by simp at hd ⊢; grind
    rcases this with rfl | h
    · exact hb
    · exact I.good d h
  have s16 : ∀ d ∈ O ++ (b, size) :: L, 4096 ≤ d.2 := by
    intro d hd
    have h1 := (hgood d hd).pos
    have h2 := (hgood d hd).mul
    omega
  have hsum : ((((b, size) :: L).map Prod.snd).sum) ≤ 140737488355328 :=
    sum_le_of_apart _ (fun d hd => (hgood d (List.mem_append_right _ hd)).high) (List.pairwise_append.1 hap').2.1
  have hbs := s16 (b, size) (by simp)
  simp only at hbs
  unfold lightReg
  rw [if_neg (by rw [I.lock]; simp)]
  refine ⟨_, _, rfl, ⟨?_, I.lock, I.cnt, ?_, hgood, hap', ?_⟩, rfl, fun x hx => writeLE_other hx⟩
  · refine ⟨rfl, hb.nz, ?_, ?_⟩
    · rw [readLE_writeLE_other (by omega)]; exact hs
    · have hc : s.cache < 256 ^ 8 := by
        have h1 := I.cache
        cases L with
        | nil => rw [show s.cache = 0 from h1]; norm_num
        | cons d l =>
          have h2 := (I.good d (by simp)).high
          rw [h1.1]
          norm_num; omega
      rw [readLE_writeLE_same, Nat.mod_eq_of_lt hc]
      refine I.cache.congr (fun d hd x hx1 hx2 => ?_)
      have h1 := ha d (List.mem_append_right _ hd)
      have h2 := s16 d (by simp [hd])
      unfold Apart at h1
      simp only at h1
      exact writeLE_other (by omega)
  · simp only [hs, I.size]
    simp only [List.map_cons, List.sum_cons] at hsum ⊢
    rw [add64_eq (by omega)]
    omega
  · intro d hd
    rw [← I.hdr d hd]
    have h1 := ha d (List.mem_append_left _ hd)
    have h2 := s16 d (by simp [hd])
    unfold Apart at h1
    simp only at h1
    unfold hSize
    exact readLE_congr (fun x hx1 hx2 => writeLE_other (by omega))

theorem lightSetupFree_other {m : Mem} {b size x : Nat} (h : x < b ∨ b + 16 ≤ x) : lightSetupFree m b size x = m x := by
  unfold lightSetupFree
  rw [writeLE_other (by omega), writeLE_other (by omega)]

theorem lightSetupFree_size {m : Mem} {b size : Nat} (h : size < W64) :
    readLE (lightSetupFree m b size) (b + 8) 8 = size := by
  unfold lightSetupFree
  rw [readLE_writeLE_same, Nat.mod_eq_of_lt (by norm_num; omega)]

/-- The bytes `O` and `L` do not cover may change. -/
theorem LInv.congr {m m' : Mem} {s : Light} {O L : List (Nat × Nat)} (I : LInv m s O L)
    (h1 : ∀ d ∈ L, AgreeOn m m' d.1 16) (h2 : ∀ d ∈ O, hSize m' d.1 = hSize m d.1) : LInv m' s O L :=
  ⟨I.cache.congr h1, I.lock, I.cnt, I.size, I.good, I.apart, fun d hd => by rw [h2 d hd]; exact I.hdr d hd⟩

/-- A bloc given back: it goes to the cache or is unmapped. -/
theorem lightFree_ok {C : Config} {m : Mem} {s : Light} {O1 O2 L : List (Nat × Nat)} {b size : Nat}
    (I : LInv m s (O1 ++ (b, size) :: O2) L) :
    ∃ m' s', lightFree C m s b = .ok (m', s') ∧
      ((size ≤ C.keepMax ∧ s.size ≤ C.keepMem ∧ LInv m' s' (O1 ++ O2) ((b, size) :: L) ∧ s'.os = s.os) ∨
       (¬ (size ≤ C.keepMax ∧ s.size ≤ C.keepMem) ∧ LInv m' s' (O1 ++ O2) L ∧ s'.os = munmap s.os b size)) ∧
      (∀ x, x < b ∨ b + size ≤ x → m' x = m x) := by
  have hb := I.good (b, size) (by simp)
  have hall : ∀ d ∈ (O1 ++ O2) ++ L, Apart (b, size) d := by
    have : ((b, size) :: ((O1 ++ O2) ++ L)).Pairwise Apart := by
      have hp : ((O1 ++ (b, size) :: O2) ++ L).Perm ((b, size) :: ((O1 ++ O2) ++ L)) :=
        List.Perm.append_right _ List.perm_middle
      exact (hp.pairwise_iff (fun h => Apart.symm h)).1 I.apart
    exact (List.pairwise_cons.1 this).1
  have hsz : hSize m b = size := I.hdr (b, size) (by simp)
  have s16 : ∀ d ∈ (O1 ++ (b, size) :: O2) ++ L, 4096 ≤ d.2 := by
    intro d hd
    have h1 := (I.good d hd).pos
    have h2 := (I.good d hd).mul
    omega
  have hbs := s16 (b, size) (by simp)
  have hhigh := hb.high
  simp only at hbs hhigh
  -- the state in which the bloc is neither handed out nor cached
  have I1 : LInv (lightSetupFree m b size) { s with counter := s.counter - 1 } (O1 ++ O2) L := by
    refine ⟨?_, I.lock, ?_, I.size, ?_, ?_, ?_⟩
    · refine I.cache.congr (fun d hd x hx1 hx2 => ?_)
      have h1 := hall d (List.mem_append_right _ hd)
      have h2 := s16 d (List.mem_append_right _ hd)
      unfold Apart at h1
      simp only at h1
      exact lightSetupFree_other (by omega)
    · simp only [I.cnt, List.length_append, List.length_cons]; omega
    · exact fun d hd => I.good d (by simp at hd ⊢; grind)
    · exact I.apart.sublist (List.Sublist.append_right (List.Sublist.append_left (List.sublist_cons_self _ _) _) _)
    · intro d hd
      rw [← I.hdr d (by simp at hd ⊢; grind)]
      have h1 := hall d (List.mem_append_left _ hd)
      have h2 := s16 d (by simp at hd ⊢; grind)
      unfold Apart at h1
      simp only at h1
      unfold hSize
      exact readLE_congr (fun x hx1 hx2 => lightSetupFree_other (by omega))
  have hrd := lightSetupFree_size (m := m) (b := b) (size := size) (by omega)
  unfold lightFree
  rw [hsz]
  simp only [hrd]
  cases hk : lightKeep C s size true with
  | true =>
    have hk' : size ≤ C.keepMax ∧ s.size ≤ C.keepMem := by
      unfold lightKeep at hk
      simpa using hk
    obtain ⟨m', s', e, I', hos, hfr⟩ := lightReg_ok I1 hb hall hrd
    rw [if_pos rfl]
    have e' : lightReg (lightSetupFree m b size) s b = .ok (m', { s' with counter := s.counter }) := by
      unfold lightReg at e ⊢
      have hl : ¬ (s.lock = true) := by rw [I.lock]; simp
      rw [if_neg hl] at e ⊢
      have := Outcome.ok.inj e
      rw [← (Prod.mk.inj this).1, ← (Prod.mk.inj this).2]
    have ec : s'.counter = s.counter - 1 := by
      rw [I'.cnt, ← I1.cnt]
    rw [e', Outcome.ok_bind]
    refine ⟨m', s', ?_, Or.inl ⟨hk'.1, hk'.2, I', hos⟩, fun x hx => ?_⟩
    · simp only [← ec]; rfl
    · rw [hfr x (by omega), lightSetupFree_other (by omega)]
  | false =>
    have hk' : ¬ (size ≤ C.keepMax ∧ s.size ≤ C.keepMem) := by
      unfold lightKeep at hk
      simpa using hk
    refine ⟨_, _, rfl, Or.inr ⟨hk', ?_, rfl⟩, fun x hx => lightSetupFree_other (by omega)⟩
    refine ⟨I1.cache, I1.lock, I1.cnt, I1.size, ?_, I1.apart, I1.hdr⟩
    intro d hd
    have g := I1.good d hd
    have h1 := hall d hd
    refine ⟨g.nz, g.page, g.pos, g.mul, g.high, fun x hx1 hx2 => ?_⟩
    unfold Apart at h1
    simp only at h1
    have hu : s.os.used x = true := g.used x hx1 hx2
    simp only [munmap]
    split
    · simp only
      rw [pageUp_eq hb.mul]
      simp only
      rw [if_neg (by omega)]
      exact hu
    · exact hu

/-- A segment given to the source. -/
theorem lightInsert_ok {m : Mem} {s : Light} {O L : List (Nat × Nat)} {b size : Nat} (I : LInv m s O L)
    (hb : Bloc s.os (b, size)) (ha : ∀ d ∈ O ++ L, Apart (b, size) d) (h2M : size % MB2 = 0) :
    ∃ m' s', lightInsert m s b size = .ok (m', s') ∧ LInv m' s' O ((b, size) :: L) ∧ s'.os = s.os ∧
      (∀ x, x < b ∨ b + size ≤ x → m' x = m x) := by
  have h0 := hb.nz
  have h1 := hb.pos
  have h2 := hb.page
  have h3 := hb.mul
  have h4 := hb.high
  simp only at h0 h1 h2 h3 h4
  have s16 : ∀ d ∈ O ++ L, 4096 ≤ d.2 := by
    intro d hd
    have h1 := (I.good d hd).pos
    have h2 := (I.good d hd).mul
    omega
  unfold lightInsert
  rw [if_neg (by omega), if_neg (by omega), if_neg (by omega)]
  have I1 : LInv (lightSetupFree m b size) s O L := by
    refine I.congr (fun d hd x hx1 hx2 => ?_) (fun d hd => ?_)
    · have h1 := ha d (List.mem_append_right _ hd)
      have h2 := s16 d (List.mem_append_right _ hd)
      unfold Apart at h1
      simp only at h1
      exact lightSetupFree_other (by omega)
    · have h1 := ha d (List.mem_append_left _ hd)
      have h2 := s16 d (List.mem_append_left _ hd)
      unfold Apart at h1
      simp only at h1
      exact readLE_congr (fun x hx1 hx2 => lightSetupFree_other (by omega))
  obtain ⟨m', s', e, I', hos, hfr⟩ := lightReg_ok I1 hb ha (lightSetupFree_size (by omega))
  exact ⟨m', s', e, I', hos, fun x hx => by rw [hfr x (by omega), lightSetupFree_other (by omega)]⟩

/-- The cleanup unmaps the cached blocs, one after the other. -/
theorem lightCleanLoop_ok {m : Mem} : ∀ (L : List (Nat × Nat)) (o : Os) (p : Nat), CacheAt m p L →
    (∀ d ∈ L, 0 < d.2 ∧ d.1 % 4096 = 0 ∧ d.2 % 4096 = 0) →
    ∃ o', lightCleanLoop m o p = .ok o' ∧
      ∀ x, o'.used x = true ↔ o.used x = true ∧ ∀ d ∈ L, x < d.1 ∨ d.1 + d.2 ≤ x
  | [], o, p, h, _ => by
    refine ⟨o, ?_, by simp⟩
    rw [lightCleanLoop, if_pos (show p = 0 from h)]
  | (a, n) :: l, o, p, h, hg => by
    obtain ⟨rfl, h0, h1, h2⟩ := h
    obtain ⟨o', e, hu⟩ := lightCleanLoop_ok l (munmap o p n) _ h2 (fun d hd => hg d (List.mem_cons_of_mem _ hd))
    obtain ⟨g1, g2, g3⟩ := hg (p, n) List.mem_cons_self
    simp only at g1 g2 g3
    refine ⟨o', ?_, fun x => ?_⟩
    · rw [lightCleanLoop, if_neg h0, h1]; exact e
    · rw [hu x]
      unfold munmap
      rw [if_pos ⟨g2, g1⟩, pageUp_eq g3]
      simp only [List.forall_mem_cons]
      by_cases hx : p ≤ x ∧ x < p + n
      · rw [if_pos hx]
        constructor
        · rintro ⟨h, _⟩; cases h
        · rintro ⟨_, h, _⟩; omega
      · rw [if_neg hx]
        constructor
        · rintro ⟨h, h'⟩; exact ⟨h, by omega, h'⟩
        · rintro ⟨h, _, h'⟩; exact ⟨h, h'⟩

end MpcAlloc

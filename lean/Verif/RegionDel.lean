import Verif.Region
import Verif.DefaultSource

/-
Region headers as objects that are mapped and unmapped: the array of header pointers, the loops over the entries of a
header and over the array, and the functions that delete (/repo/src/sctk_allocator.c 2114-2143, 2194-2275, 2347-2385,
2424-2508). One thread; the initialisation with several threads is in RegionInit.lean.
-/

namespace MpcAlloc.RegionDel

/-- `SCTK_REGION_HEADER_ENTRIES`, sctk_alloc_region.h: entries of a header. -/
def N : Nat := 524288

/-- `sctk_alloc_glob_regions_init`, `sctk_alloc_glob_regions` (0 is NULL) and the headers that are mapped, with their
entries (`macro_bloc`). Simplification: a header is known by its address and is mapped or not as a whole. -/
structure S where
  init : Bool
  glob : Nat → Nat
  hdr : Nat → Option (Nat → Nat)

/-- The globals at the start of the program. -/
def start : S := ⟨false, fun _ => 0, fun _ => none⟩

/-- `sctk_alloc_region_init`, sctk_allocator.c 2476-2484. -/
def regionInit (s : S) : S := if s.init then s else { s with init := true, glob := fun _ => 0 }

/-- Read entry `i` of the header at `r`; an unmapped header is a fault. -/
def rd (s : S) (r i : Nat) : Outcome Nat :=
  match s.hdr r with
  | none => .ub
  | some f => .ok (f i)

/-- Write entry `i` of the header at `r`. -/
def wr (s : S) (r i v : Nat) : Outcome S :=
  match s.hdr r with
  | none => .ub
  | some f => .ok { s with hdr := fun x => if x = r then some (fun j => if j = i then v else f j) else s.hdr x }

/-- `sctk_alloc_region_setup`, sctk_allocator.c 2209-2242; `p` is the answer of `mmap` (`none`: it failed). -/
def setup (s : S) (addr : Nat) (p : Option Nat) : Outcome (S × Nat) :=
  if addr / TB1 ≥ 256 then .ub else
  let s := regionInit s
  if s.glob (addr / TB1) = 0 then
    match p with
    | none => .abort
    | some r => .ok ({ s with glob := fun i => if i = addr / TB1 then r else s.glob i,
                              hdr := fun x => if x = r then some (fun _ => 0) else s.hdr x }, r)
  else .ok (s, s.glob (addr / TB1))

/-- `sctk_alloc_region_get` with `sctk_alloc_region_get_id`, sctk_allocator.c 2194-2199 and 2251-2254. -/
def get (s : S) (addr : Nat) : Outcome Nat := if addr / TB1 ≥ 256 then .ub else .ok (s.glob (addr / TB1))

/-- `sctk_alloc_region_exist`, sctk_allocator.c 2466-2468. -/
def exist (s : S) (addr : Nat) : Outcome Bool := do
  let r ← get s addr
  return r != 0

/-- `sctk_alloc_region_get_entry`, sctk_allocator.c 2263-2275: the header and the number of the entry. -/
def getEntry (s : S) (addr : Nat) (p : Option Nat) : Outcome (S × Nat × Nat) :=
  get s addr >>= fun r =>
  (if r = 0 then setup s addr p else .ok (s, r)) >>= fun q =>
  .ok (q.1, q.2, addr % TB1 / MB2)

/-- One turn of the loop of `sctk_alloc_region_set_entry`, sctk_allocator.c 2331-2337. -/
def put (s : S) (addr b : Nat) (p : Option Nat) : Outcome S := do
  let (s, r, i) ← getEntry s addr p
  let v ← rd s r i
  if v ≠ 0 then .abort else wr s r i b

/-- One turn of the loop of `sctk_alloc_region_unset_entry`, sctk_allocator.c 2293-2296. -/
def clear (s : S) (addr b : Nat) (p : Option Nat) : Outcome S := do
  let (s, r, i) ← getEntry s addr p
  let v ← rd s r i
  if v = b then wr s r i 0 else .ok s

/-- Loop of `sctk_alloc_region_has_ref`, sctk_allocator.c 2351-2355. -/
def hasRef (s : S) (r i : Nat) : Outcome Bool :=
  if i < N then do
    let v ← rd s r i
    if v ≠ 0 then return true else hasRef s r (i + 1)
  else .ok false
termination_by N - i

/-- The second test of the loop of `sctk_alloc_region_del_chain`, sctk_allocator.c 2377-2379. `own b` is the field `chain`
of the macro bloc at `b` (`none`: the memory is not mapped, reading it is a fault). -/
def delOwned (own : Nat → Option Nat) (s : S) (r c i v : Nat) : Outcome S :=
  if v = 0 then .ok s else
  match own v with
  | none => .ub
  | some o => if o = c then wr s r i 0 else .ok s

/-- Loop of `sctk_alloc_region_del_chain`, sctk_allocator.c 2374-2380. -/
def delChainLoop (own : Nat → Option Nat) (s : S) (r c i : Nat) : Outcome S :=
  if i < N then
    (if c = 0 then wr s r i 0 else .ok s) >>= fun s =>
    rd s r i >>= fun v =>
    delOwned own s r c i v >>= fun s =>
    delChainLoop own s r c (i + 1)
  else .ok s
termination_by N - i

/-- `sctk_alloc_region_del_chain`, sctk_allocator.c 2363-2385. -/
def delChain (own : Nat → Option Nat) (s : S) (r c : Nat) : Outcome S :=
  if r = 0 then .ok s else delChainLoop own (regionInit s) r c 0

/-- The search of `sctk_alloc_region_del`, sctk_allocator.c 2441-2442. -/
def search (s : S) (r id : Nat) : Nat :=
  if id < 256 ∧ s.glob id ≠ r then search s r (id + 1) else id
termination_by 256 - id

/-- `sctk_alloc_region_del`, sctk_allocator.c 2424-2456: refused while an entry is set. -/
def del (s : S) (r : Nat) : Outcome S :=
  if r = 0 then .ok s else do
  let b ← hasRef s r 0
  if b then return s else
  let s := regionInit s
  let id := search s r 0
  let s := if id < 256 then { s with glob := fun i => if i = id then 0 else s.glob i } else s
  return { s with hdr := fun x => if x = r then none else s.hdr x }

/-- Loop of `sctk_alloc_region_del_all`, sctk_allocator.c 2499-2503. -/
def delAll (own : Nat → Option Nat) (s : S) (i : Nat) : Outcome S :=
  if i < 256 then
    if s.glob i ≠ 0 then do
      let s ← delChain own s (s.glob i) 0
      let s ← del s (s.glob i)
      delAll own s (i + 1)
    else delAll own s (i + 1)
  else .ok s
termination_by 256 - i

/-- Loop of `sctk_alloc_mm_source_default_cleanup`, sctk_allocator.c 2126-2136. -/
def cleanLoop (own : Nat → Option Nat) (s : S) (end_ cur : Nat) : Outcome S :=
  if cur < end_ then do
    let r ← get s cur
    let s ← delChain own s r 0
    let s ← del s r
    cleanLoop own s end_ (add64 cur TB1)
  else .ok s
partial_fixpoint

/-- One call. `delete` and `delChain` are given the header of a region that exists (`sctk_alloc_region_get`) or NULL. -/
inductive Step : S → S → Prop
  | setup {s s' a p r} : (∀ q, p = some q → q ≠ 0 ∧ s.hdr q = none) → setup s a p = .ok (s', r) → Step s s'
  | put {s s' a b p} : (∀ q, p = some q → q ≠ 0 ∧ s.hdr q = none) → put s a b p = .ok s' → Step s s'
  | clear {s s' a b p} : (∀ q, p = some q → q ≠ 0 ∧ s.hdr q = none) → clear s a b p = .ok s' → Step s s'
  | delChain {s s' own a r c} : get s a = .ok r → delChain own s r c = .ok s' → Step s s'
  | delete {s s' a r} : get s a = .ok r → del s r = .ok s' → Step s s'
  | delAll {s s' own} : delAll own s 0 = .ok s' → Step s s'
  | clean {s s' own e h} : cleanLoop own s e h = .ok s' → Step s s'

/-- Any history of calls. -/
inductive Reach : S → Prop
  | start : Reach start
  | step {s s'} : Reach s → Step s s' → Reach s'

/-! ## The invariant -/

structure Inv (s : S) : Prop where
  out : ∀ i, 256 ≤ i → s.glob i = 0
  live : ∀ i, s.glob i ≠ 0 → s.hdr (s.glob i) ≠ none
  inj : ∀ i j, s.glob i ≠ 0 → s.glob i = s.glob j → i = j
  held : ∀ r, s.hdr r ≠ none → ∃ i, s.glob i = r
  zero : s.hdr 0 = none
  first : s.init = false → ∀ i, s.glob i = 0

/-- What the table says of slot `k` (addresses from `k * 2 MB`). -/
def look (s : S) (k : Nat) : Nat :=
  match s.hdr (s.glob (k / N)) with
  | none => 0
  | some f => f (k % N)

theorem Inv.start : Inv RegionDel.start :=
  ⟨fun _ _ => rfl, fun _ h => absurd rfl h, fun _ _ h => absurd rfl h, fun _ h => absurd rfl h, rfl, fun _ _ => rfl⟩

theorem Inv.regionInit {s : S} (I : Inv s) : Inv (regionInit s) ∧ (regionInit s).glob = s.glob ∧ (regionInit s).hdr = s.hdr := by
  unfold RegionDel.regionInit
  split
  · exact ⟨I, rfl, rfl⟩
  · rename_i h
    have h0 : s.glob = fun _ => 0 := funext (I.first (by simpa using h))
    refine ⟨⟨fun _ _ => rfl, fun _ h => absurd rfl h, fun _ _ h => absurd rfl h, ?_, I.zero, fun _ _ => rfl⟩, h0.symm, rfl⟩
    intro r hr
    obtain ⟨i, e⟩ := I.held r hr
    exact ⟨i, by rw [← e, h0]⟩

/-- A header changed in place. -/
theorem Inv.write {s : S} (I : Inv s) {r : Nat} {f : Nat → Nat} (hr : s.hdr r ≠ none) :
    Inv { s with hdr := fun x => if x = r then some f else s.hdr x } := by
  refine ⟨I.out, ?_, I.inj, ?_, ?_, I.first⟩
  · intro i hi
    show (if s.glob i = r then _ else _) ≠ none
    split
    · simp
    · exact I.live i hi
  · intro x hx
    by_cases e : x = r
    · rw [e]; exact I.held r hr
    · exact I.held x (by simpa [e] using hx)
  · show (if 0 = r then _ else _) = none
    split
    · rename_i e; exact absurd I.zero (e ▸ hr)
    · exact I.zero

theorem wr_eq {s : S} {r i v : Nat} {f : Nat → Nat} (h : s.hdr r = some f) :
    wr s r i v = .ok { s with hdr := fun x => if x = r then some (fun j => if j = i then v else f j) else s.hdr x } := by
  unfold wr; rw [h]

theorem rd_eq {s : S} {r i : Nat} {f : Nat → Nat} (h : s.hdr r = some f) : rd s r i = .ok (f i) := by
  unfold rd; rw [h]

/-- `sctk_alloc_region_has_ref` tells whether an entry is set. -/
theorem hasRef_eq {s : S} {r : Nat} {f : Nat → Nat} (h : s.hdr r = some f) (n i : Nat) (e : N - i = n) :
    (hasRef s r i = .ok true ∧ ∃ j, i ≤ j ∧ j < N ∧ f j ≠ 0) ∨ (hasRef s r i = .ok false ∧ ∀ j, i ≤ j → j < N → f j = 0) := by
  induction n generalizing i with
  | zero =>
    right
    have hi : ¬ i < N := by omega
    rw [hasRef, if_neg hi]
    exact ⟨rfl, fun j h1 h2 => absurd (Nat.lt_of_le_of_lt h1 h2) hi⟩
  | succ n ih =>
    have hi : i < N := by omega
    rw [hasRef, if_pos hi, rd_eq h, Outcome.ok_bind]
    by_cases hv : f i = 0
    · rw [if_neg (by simpa using hv)]
      rcases ih (i + 1) (by omega) with ⟨h1, j, h2, h3⟩ | ⟨h1, h2⟩
      · exact .inl ⟨h1, j, by omega, h3⟩
      · refine .inr ⟨h1, fun j h3 h4 => ?_⟩
        by_cases hj : j = i
        · rw [hj]; exact hv
        · exact h2 j (by omega) h4
    · rw [if_pos hv]
      exact .inl ⟨rfl, i, Nat.le_refl _, hi, hv⟩

/-- What `sctk_alloc_region_del_chain` leaves in an entry. -/
def forget (own : Nat → Option Nat) (c v : Nat) : Nat :=
  if c = 0 then 0 else if v ≠ 0 ∧ own v = some c then 0 else v

theorem hdr_self (s : S) (r : Nat) (f : Nat → Nat) (h : s.hdr r = some f) :
    { s with hdr := fun x => if x = r then some f else s.hdr x } = s := by
  have : (fun x => if x = r then some f else s.hdr x) = s.hdr := by
    funext x
    split
    · rename_i e; rw [e, h]
    · rfl
  rw [this]

theorem delChainLoop_eq {own : Nat → Option Nat} {c : Nat} (n : Nat) {s : S} {r : Nat} {f : Nat → Nat} (h : s.hdr r = some f)
    (ho : c = 0 ∨ ∀ j, j < N → f j ≠ 0 → own (f j) ≠ none) (i : Nat) (e : N - i = n) :
    delChainLoop own s r c i =
      .ok { s with hdr := fun x => if x = r then some (fun j => if i ≤ j ∧ j < N then forget own c (f j) else f j) else s.hdr x } := by
  induction n generalizing i s f with
  | zero =>
    have hi : ¬ i < N := by omega
    rw [delChainLoop, if_neg hi]
    congr 1
    have : (fun j => if i ≤ j ∧ j < N then forget own c (f j) else f j) = f := by
      funext j
      rw [if_neg (by omega)]
    rw [this, hdr_self s r f h]
  | succ n ih =>
    have hi : i < N := by omega
    -- one turn
    have turn : ∀ s1 : S, ∀ g : Nat → Nat, s1 = { s with hdr := fun x => if x = r then some g else s.hdr x } →
        (g = fun j => if j = i then forget own c (f j) else f j) → delChainLoop own s1 r c (i + 1) =
          .ok { s with hdr := fun x => if x = r then some (fun j => if i ≤ j ∧ j < N then forget own c (f j) else f j) else s.hdr x } := by
      intro s1 g e1 e2
      have h1 : s1.hdr r = some g := by rw [e1]; simp
      rw [ih h1 (by
        rcases ho with ho | ho
        · exact .inl ho
        · refine .inr fun j hj hg => ?_
          rw [e2] at hg ⊢
          by_cases hji : j = i
          · simp only [hji, if_true] at hg ⊢
            unfold forget at hg ⊢
            by_cases hc : c = 0
            · simp [hc] at hg
            · rw [if_neg hc] at hg ⊢
              split at hg
              · exact absurd rfl hg
              · rw [if_neg (by assumption)]; exact ho i hi hg
          · simp only [hji, if_false] at hg ⊢
            exact ho j hj hg) (i + 1) (by omega)]
      subst e1
      congr 2
      funext x
      by_cases hx : x = r
      · simp only [hx, if_true]
        congr 1
        funext j
        rw [e2]
        simp only
        by_cases hj : j = i
        · subst hj
          rw [if_neg (by omega), if_pos rfl, if_pos (by omega)]
        · rw [if_neg hj]
          by_cases hj2 : i + 1 ≤ j ∧ j < N
          · rw [if_pos hj2, if_pos (by omega)]
          · rw [if_neg hj2, if_neg (by omega)]
      · simp only [hx, if_false]
    rw [delChainLoop, if_pos hi]
    by_cases hc : c = 0
    · rw [if_pos hc, wr_eq h, Outcome.ok_bind,
        rd_eq (f := fun j => if j = i then 0 else f j) (by simp), Outcome.ok_bind]
      simp only [if_true]
      unfold delOwned
      rw [if_pos rfl, Outcome.ok_bind]
      refine turn _ _ rfl ?_
      funext j
      unfold forget
      rw [if_pos hc]
    · rw [if_neg hc, Outcome.ok_bind, rd_eq h, Outcome.ok_bind]
      unfold delOwned
      by_cases hv : f i = 0
      · rw [if_pos hv, Outcome.ok_bind]
        refine turn s f (hdr_self s r f h).symm ?_
        funext j
        split
        · rename_i hj
          unfold forget
          rw [if_neg hc, if_neg (by rw [hj]; simp [hv])]
        · rfl
      · rw [if_neg hv]
        have := (ho.resolve_left hc) i hi hv
        cases hw : own (f i) with
        | none => exact absurd hw this
        | some o =>
          by_cases hoc : o = c
          · simp only [hoc, if_true]
            rw [wr_eq h, Outcome.ok_bind]
            refine turn _ _ rfl ?_
            funext j
            split
            · rename_i hj
              unfold forget
              rw [if_neg hc, if_pos (by rw [hj, hw, hoc]; exact ⟨hv, rfl⟩)]
            · rfl
          · simp only [hoc, if_false, Outcome.ok_bind]
            refine turn s f (hdr_self s r f h).symm ?_
            funext j
            split
            · rename_i hj
              unfold forget
              rw [if_neg hc, if_neg (by rw [hj, hw]; intro hh; exact hoc (by simpa using hh.2))]
            · rfl

/-- Whatever it does, `sctk_alloc_region_del_chain` changes only the entries of the header. -/
theorem delChainLoop_shape {own : Nat → Option Nat} {c : Nat} (n : Nat) {s s' : S} {r i : Nat} (e : N - i = n)
    (h : delChainLoop own s r c i = .ok s') (hi0 : s.hdr r ≠ none) :
    ∃ g, s' = { s with hdr := fun x => if x = r then some g else s.hdr x } := by
  induction n generalizing i s with
  | zero =>
    have hi : ¬ i < N := by omega
    rw [delChainLoop, if_neg hi] at h
    cases hf : s.hdr r with
    | none => exact absurd hf hi0
    | some f => exact ⟨f, by rw [hdr_self s r f hf]; exact (Outcome.ok.inj h).symm⟩
  | succ n ih =>
    have hi : i < N := by omega
    have wrs : ∀ {s1 s2 : S} {j v : Nat}, (∃ g, s1 = { s with hdr := fun x => if x = r then some g else s.hdr x }) →
        wr s1 r j v = .ok s2 → ∃ g, s2 = { s with hdr := fun x => if x = r then some g else s.hdr x } := by
      rintro s1 s2 j v ⟨g, rfl⟩ hw
      rw [wr_eq (f := g) (by simp)] at hw
      refine ⟨fun x => if x = j then v else g x, ?_⟩
      rw [← Outcome.ok.inj hw]
      congr 1
      funext x
      by_cases hx : x = r <;> simp [hx]
    have hself : ∃ g, s = { s with hdr := fun x => if x = r then some g else s.hdr x } := by
      cases hf : s.hdr r with
      | none => exact absurd hf hi0
      | some f => exact ⟨f, (hdr_self s r f hf).symm⟩
    rw [delChainLoop, if_pos hi] at h
    obtain ⟨s1, h1, h⟩ := Outcome.bind_eq_ok h
    obtain ⟨v, hv, h⟩ := Outcome.bind_eq_ok h
    obtain ⟨s2, h2, h⟩ := Outcome.bind_eq_ok h
    have e1 : ∃ g, s1 = { s with hdr := fun x => if x = r then some g else s.hdr x } := by
      split at h1
      · exact wrs hself h1
      · rw [← Outcome.ok.inj h1]; exact hself
    have e2 : ∃ g, s2 = { s with hdr := fun x => if x = r then some g else s.hdr x } := by
      unfold delOwned at h2
      split at h2
      · rw [← Outcome.ok.inj h2]; exact e1
      · split at h2
        · cases h2
        · split at h2
          · exact wrs e1 h2
          · rw [← Outcome.ok.inj h2]; exact e1
    obtain ⟨g2, e2⟩ := e2
    obtain ⟨g, e3⟩ := ih (by omega) h (by rw [e2]; simp)
    refine ⟨g, ?_⟩
    rw [e3, e2]
    congr 1
    funext x
    by_cases hx : x = r <;> simp [hx]

theorem search_eq {s : S} (I : Inv s) {id : Nat} (hne : s.glob id ≠ 0) (n j : Nat) (e : id - j = n) (hj : j ≤ id) :
    search s (s.glob id) j = id := by
  have hid : id < 256 := Classical.byContradiction fun h => hne (I.out id (by omega))
  induction n generalizing j with
  | zero =>
    have : j = id := by omega
    subst this
    rw [search, if_neg (by simp)]
  | succ n ih =>
    have hji : j ≠ id := by omega
    rw [search, if_pos ⟨by omega, fun h => hji (I.inj id j hne h.symm).symm⟩]
    exact ih (j + 1) (by omega) (by omega)

/-- Region `id` and its header forgotten. -/
def drop (s : S) (id : Nat) : S :=
  { regionInit s with glob := fun i => if i = id then 0 else s.glob i, hdr := fun x => if x = s.glob id then none else s.hdr x }

theorem del_eq {s : S} (I : Inv s) {id : Nat} {f : Nat → Nat} (h : s.hdr (s.glob id) = some f) :
    del s (s.glob id) = if (∀ j, j < N → f j = 0) then .ok (drop s id) else .ok s := by
  have hne : s.glob id ≠ 0 := fun h0 => by rw [h0, I.zero] at h; cases h
  have hid : id < 256 := Classical.byContradiction fun hh => hne (I.out id (by omega))
  obtain ⟨I', hg, hh⟩ := I.regionInit
  unfold del
  rw [if_neg hne]
  rcases hasRef_eq h (N - 0) 0 rfl with ⟨h1, j, _, h3, h4⟩ | ⟨h1, h2⟩
  · have hz : ¬ ∀ j, j < N → f j = 0 := fun hz => h4 (hz j h3)
    rw [h1, Outcome.ok_bind, if_pos rfl, if_neg hz]
    rfl
  · have hz : ∀ j, j < N → f j = 0 := fun j hj => h2 j (Nat.zero_le _) hj
    rw [h1, Outcome.ok_bind, if_neg (by decide : ¬ (false = true)), if_pos hz]
    have hs : search (regionInit s) (s.glob id) 0 = id := by
      have := search_eq I' (id := id) (by rw [hg]; exact hne) id 0 (by omega) (by omega)
      rw [hg] at this
      exact this
    simp only [hs, if_pos hid, Outcome.pure_eq]
    unfold drop
    rw [hg, hh]

theorem Inv.drop {s : S} (I : Inv s) (id : Nat) : Inv (drop s id) := by
  obtain ⟨I', hg, hh⟩ := I.regionInit
  refine ⟨?_, ?_, ?_, ?_, ?_, ?_⟩
  · intro i hi
    show (if i = id then 0 else s.glob i) = 0
    split
    · rfl
    · exact I.out i hi
  · intro i hi
    have hi' : (if i = id then 0 else s.glob i) ≠ 0 := hi
    show (if (if i = id then 0 else s.glob i) = s.glob id then none else s.hdr (if i = id then 0 else s.glob i)) ≠ none
    by_cases e : i = id
    · rw [if_pos e] at hi'; exact absurd rfl hi'
    · rw [if_neg e] at hi' ⊢
      rw [if_neg (fun h => e (I.inj i id hi' h))]
      exact I.live i hi'
  · intro i j hi hj
    have hi' : (if i = id then 0 else s.glob i) ≠ 0 := hi
    have hj' : (if i = id then 0 else s.glob i) = (if j = id then 0 else s.glob j) := hj
    by_cases e : i = id
    · rw [if_pos e] at hi'; exact absurd rfl hi'
    · rw [if_neg e] at hi' hj'
      by_cases e2 : j = id
      · rw [if_pos e2] at hj'; exact absurd hj' hi'
      · rw [if_neg e2] at hj'
        exact I.inj i j hi' hj'
  · intro r hr
    have hr' : (if r = s.glob id then none else s.hdr r) ≠ none := hr
    by_cases e : r = s.glob id
    · rw [if_pos e] at hr'; exact absurd rfl hr'
    · rw [if_neg e] at hr'
      obtain ⟨i, hi⟩ := I.held r hr'
      refine ⟨i, ?_⟩
      show (if i = id then 0 else s.glob i) = r
      rw [if_neg (fun h => e (by rw [← hi, h])), hi]
  · show (if 0 = s.glob id then none else s.hdr 0) = none
    split
    · rfl
    · exact I.zero
  · intro h
    have : (RegionDel.regionInit s).init = false := h
    unfold RegionDel.regionInit at this
    split at this
    · rename_i h1; rw [h1] at this; cases this
    · cases this

theorem Inv.setup {s s' : S} {a r : Nat} {p : Option Nat} (I : Inv s) (hp : ∀ q, p = some q → q ≠ 0 ∧ s.hdr q = none)
    (e : setup s a p = .ok (s', r)) : Inv s' ∧ s'.hdr r ≠ none ∧ r = s'.glob (a / TB1) ∧ a / TB1 < 256 ∧
      (∀ k, look s' k = look s k) := by
  unfold RegionDel.setup at e
  split at e
  · cases e
  rename_i hid
  obtain ⟨I', hg, hh⟩ := I.regionInit
  have hlook : ∀ k, look (RegionDel.regionInit s) k = look s k := fun k => by unfold look; rw [hg, hh]
  simp only at e
  split at e
  · rename_i hz
    cases p with
    | none => cases e
    | some q =>
      obtain ⟨hq0, hqn⟩ := hp q rfl
      simp only at e
      cases e
      have hqn' : (RegionDel.regionInit s).hdr r = none := by rw [hh]; exact hqn
      have hfresh : ∀ i, (RegionDel.regionInit s).glob i ≠ r := fun i hi =>
        I'.live i (by rw [hi]; exact hq0) (by rw [hi]; exact hqn')
      refine ⟨⟨?_, ?_, ?_, ?_, ?_, ?_⟩, by simp, by simp, by omega, ?_⟩
      · intro i hi
        show (if i = a / TB1 then r else _) = 0
        rw [if_neg (by omega)]
        exact I'.out i hi
      · intro i hi
        have hi' : (if i = a / TB1 then r else (RegionDel.regionInit s).glob i) ≠ 0 := hi
        show (if (if i = a / TB1 then r else (RegionDel.regionInit s).glob i) = r then some _ else
          (RegionDel.regionInit s).hdr (if i = a / TB1 then r else (RegionDel.regionInit s).glob i)) ≠ none
        by_cases e : i = a / TB1
        · rw [if_pos e, if_pos rfl]; simp
        · rw [if_neg e] at hi' ⊢
          rw [if_neg (hfresh i)]
          exact I'.live i hi'
      · intro i j hi hj
        have hi' : (if i = a / TB1 then r else (RegionDel.regionInit s).glob i) ≠ 0 := hi
        have hj' : (if i = a / TB1 then r else (RegionDel.regionInit s).glob i) =
          (if j = a / TB1 then r else (RegionDel.regionInit s).glob j) := hj
        by_cases e : i = a / TB1
        · by_cases e2 : j = a / TB1
          · rw [e, e2]
          · rw [if_pos e, if_neg e2] at hj'; exact absurd hj'.symm (hfresh j)
        · rw [if_neg e] at hi' hj'
          by_cases e2 : j = a / TB1
          · rw [if_pos e2] at hj'; exact absurd hj' (hfresh i)
          · rw [if_neg e2] at hj'; exact I'.inj i j hi' hj'
      · intro x hx
        have hx' : (if x = r then some _ else (RegionDel.regionInit s).hdr x) ≠ none := hx
        by_cases e : x = r
        · exact ⟨a / TB1, by show (if _ then _ else _) = x; rw [if_pos rfl, e]⟩
        · rw [if_neg e] at hx'
          obtain ⟨i, hi⟩ := I'.held x hx'
          refine ⟨i, ?_⟩
          show (if i = a / TB1 then r else (RegionDel.regionInit s).glob i) = x
          rw [if_neg (fun h => ?_), hi]
          rw [h, hz] at hi
          rw [← hi] at hx'
          exact hx' I'.zero
      · show (if 0 = r then some _ else (RegionDel.regionInit s).hdr 0) = none
        rw [if_neg (fun h => hq0 h.symm)]
        exact I'.zero
      · intro h
        have : (RegionDel.regionInit s).init = false := h
        unfold RegionDel.regionInit at this
        split at this
        · rename_i h1; rw [h1] at this; cases this
        · cases this
      · intro k
        rw [← hlook k]
        unfold look
        show (match (if (if k / N = a / TB1 then r else (RegionDel.regionInit s).glob (k / N)) = r then some _ else
          (RegionDel.regionInit s).hdr (if k / N = a / TB1 then r else (RegionDel.regionInit s).glob (k / N))) with
          | none => 0 | some f => f (k % N)) = _
        by_cases e : k / N = a / TB1
        · rw [if_pos e, if_pos rfl, e, hz, I'.zero]
        · rw [if_neg e, if_neg (hfresh _)]
  · rename_i hz
    cases e
    exact ⟨I', I'.live _ hz, rfl, by omega, hlook⟩

theorem Inv.getEntry {s s' : S} {a r i : Nat} {p : Option Nat} (I : Inv s) (hp : ∀ q, p = some q → q ≠ 0 ∧ s.hdr q = none)
    (e : getEntry s a p = .ok (s', r, i)) : Inv s' ∧ s'.hdr r ≠ none ∧ r = s'.glob (a / TB1) ∧ a / TB1 < 256 ∧
      i = a % TB1 / MB2 ∧ (∀ k, look s' k = look s k) := by
  unfold RegionDel.getEntry at e
  obtain ⟨r0, e0, e'⟩ := Outcome.bind_eq_ok e
  obtain ⟨⟨s1, r1⟩, e1, e2⟩ := Outcome.bind_eq_ok e'
  clear e e'
  unfold get at e0
  split at e0
  · cases e0
  cases e0
  cases e2
  split at e1
  · obtain ⟨h1, h2, h3, h4, h5⟩ := I.setup hp e1
    exact ⟨h1, h2, h3, h4, rfl, h5⟩
  · cases e1
    exact ⟨I, I.live _ (by assumption), rfl, by omega, rfl, fun _ => rfl⟩

/-- A write in the header of a region changes one slot. -/
theorem look_write {s : S} (I : Inv s) {id i v : Nat} {f : Nat → Nat} (h : s.hdr (s.glob id) = some f) (hi : i < N) (k : Nat) :
    look { s with hdr := fun x => if x = s.glob id then some (fun j => if j = i then v else f j) else s.hdr x } k =
      if k = id * N + i then v else look s k := by
  have hne : s.glob id ≠ 0 := fun h0 => by rw [h0, I.zero] at h; cases h
  unfold look
  show (match (if s.glob (k / N) = s.glob id then some _ else s.hdr (s.glob (k / N))) with | none => 0 | some f => f (k % N)) = _
  by_cases e : k / N = id
  · rw [e, if_pos rfl, h]
    unfold N at *
    by_cases e2 : k % 524288 = i
    · simp only [e2, if_true]
      rw [if_pos (by omega)]
    · simp only [e2, if_false]
      rw [if_neg (by omega)]
  · rw [if_neg (fun h => e (I.inj id (k / N) hne h.symm).symm)]
    unfold N at *
    rw [if_neg (by omega)]

theorem Inv.delChain {own : Nat → Option Nat} {s s' : S} {r c : Nat} (I : Inv s) (hr : r = 0 ∨ s.hdr r ≠ none)
    (e : delChain own s r c = .ok s') : Inv s' ∧ s'.glob = s.glob ∧ ∀ x, s'.hdr x = none ↔ s.hdr x = none := by
  unfold RegionDel.delChain at e
  split at e
  · cases e; exact ⟨I, rfl, fun _ => Iff.rfl⟩
  · rename_i h0
    obtain ⟨I', hg, hh⟩ := I.regionInit
    have hr' : (RegionDel.regionInit s).hdr r ≠ none := by rw [hh]; exact hr.resolve_left h0
    obtain ⟨g, rfl⟩ := delChainLoop_shape _ rfl e hr'
    refine ⟨I'.write hr', hg, fun x => ?_⟩
    show (if x = r then some g else (RegionDel.regionInit s).hdr x) = none ↔ _
    rw [hh]
    split
    · rename_i ex
      constructor
      · intro h; cases h
      · intro h; rw [ex] at h; exact absurd h (hr.resolve_left h0)
    · rfl

theorem Inv.del {s s' : S} {a r : Nat} (I : Inv s) (hg : get s a = .ok r) (e : del s r = .ok s') : Inv s' := by
  unfold get at hg
  split at hg
  · cases hg
  cases hg
  by_cases h0 : s.glob (a / TB1) = 0
  · unfold RegionDel.del at e
    rw [if_pos h0] at e
    cases e
    exact I
  · cases hf : s.hdr (s.glob (a / TB1)) with
    | none => exact absurd hf (I.live _ h0)
    | some f =>
      rw [del_eq I hf] at e
      split at e
      · cases e; exact I.drop _
      · cases e; exact I

theorem get_cases {s : S} (I : Inv s) {a r : Nat} (hg : get s a = .ok r) : a / TB1 < 256 ∧ r = s.glob (a / TB1) ∧ (r = 0 ∨ s.hdr r ≠ none) := by
  unfold get at hg
  split at hg
  · cases hg
  cases hg
  refine ⟨by omega, rfl, ?_⟩
  by_cases h0 : s.glob (a / TB1) = 0
  · exact .inl h0
  · exact .inr (I.live _ h0)

theorem clear_shape {s s' : S} {a b : Nat} {p : Option Nat} (I : Inv s) (hp : ∀ q, p = some q → q ≠ 0 ∧ s.hdr q = none)
    (e : clear s a b p = .ok s') : Inv s' := by
  unfold clear at e
  obtain ⟨⟨s1, r, i⟩, e1, e2⟩ := Outcome.bind_eq_ok e
  obtain ⟨v, e3, e4⟩ := Outcome.bind_eq_ok e2
  obtain ⟨I1, hr, _⟩ := I.getEntry hp e1
  split at e4
  · cases hf : s1.hdr r with
    | none => exact absurd hf hr
    | some f => rw [wr_eq hf] at e4; cases e4; exact I1.write hr
  · cases e4; exact I1

theorem put_shape {s s' : S} {a b : Nat} {p : Option Nat} (I : Inv s) (hp : ∀ q, p = some q → q ≠ 0 ∧ s.hdr q = none)
    (e : put s a b p = .ok s') : Inv s' := by
  unfold put at e
  obtain ⟨⟨s1, r, i⟩, e1, e2⟩ := Outcome.bind_eq_ok e
  obtain ⟨v, e3, e4⟩ := Outcome.bind_eq_ok e2
  obtain ⟨I1, hr, _⟩ := I.getEntry hp e1
  split at e4
  · cases e4
  · cases hf : s1.hdr r with
    | none => exact absurd hf hr
    | some f => rw [wr_eq hf] at e4; cases e4; exact I1.write hr

/-- The header of region `id` with its entries cleared. -/
def wipe (s : S) (id : Nat) : S :=
  { regionInit s with hdr := fun x => if x = s.glob id then (match s.hdr x with
      | none => none
      | some f => some (fun j => if j < N then 0 else f j)) else s.hdr x }

theorem delChain_null (own : Nat → Option Nat) {s : S} (I : Inv s) (id : Nat) :
    delChain own s (s.glob id) 0 = .ok (if s.glob id = 0 then s else wipe s id) := by
  unfold delChain
  by_cases h0 : s.glob id = 0
  · rw [if_pos h0, if_pos h0]
  · rw [if_neg h0, if_neg h0]
    obtain ⟨_, hg, hh⟩ := I.regionInit
    cases hf : s.hdr (s.glob id) with
    | none => exact absurd hf (I.live _ h0)
    | some f =>
      rw [delChainLoop_eq _ (f := f) (by rw [hh]; exact hf) (.inl rfl) 0 rfl]
      unfold wipe
      congr 2
      funext x
      rw [hh]
      split
      · rename_i hx
        rw [hx, hf]
        congr 1
        funext j
        unfold forget
        simp
      · rfl

/-- Region `id` emptied and deleted. -/
theorem delRegion (own : Nat → Option Nat) {s : S} (I : Inv s) (id : Nat) :
    (delChain own s (s.glob id) 0 >>= fun s' => del s' (s.glob id)) = .ok (if s.glob id = 0 then s else drop s id) := by
  rw [delChain_null own I, Outcome.ok_bind]
  by_cases h0 : s.glob id = 0
  · rw [if_pos h0, if_pos h0]
    unfold del
    rw [if_pos h0]
  · rw [if_neg h0, if_neg h0]
    obtain ⟨_, hg, hh⟩ := I.regionInit
    have hd := delChain_null own I id
    rw [if_neg h0] at hd
    obtain ⟨Iw, hgw, _⟩ := I.delChain (.inr (I.live _ h0)) hd
    cases hf : s.hdr (s.glob id) with
    | none => exact absurd hf (I.live _ h0)
    | some f =>
      have hfw : (wipe s id).hdr ((wipe s id).glob id) = some (fun j => if j < N then 0 else f j) := by
        rw [hgw]
        show (if s.glob id = s.glob id then _ else _) = _
        rw [if_pos rfl, hf]
      have hde := del_eq Iw hfw
      rw [hgw] at hde
      rw [hde, if_pos (fun j hj => by rw [if_pos hj])]
      have hri : regionInit (wipe s id) = wipe s id := by
        have : (wipe s id).init = true := by
          show (regionInit s).init = true
          unfold regionInit
          split
          · assumption
          · rfl
        unfold regionInit
        rw [if_pos this]
      unfold drop
      rw [hgw, hri]
      congr 1
      show S.mk _ _ _ = S.mk _ _ _
      congr 1
      funext x
      split
      · rfl
      · show (if x = s.glob id then _ else s.hdr x) = _
        rw [if_neg (by assumption)]

theorem look_drop {s : S} (I : Inv s) {id : Nat} (h0 : s.glob id ≠ 0) (k : Nat) :
    look (drop s id) k = if k / N = id then 0 else look s k := by
  unfold look
  show (match (if (if k / N = id then 0 else s.glob (k / N)) = s.glob id then none else
    s.hdr (if k / N = id then 0 else s.glob (k / N))) with | none => 0 | some f => f (k % N)) = _
  by_cases e : k / N = id
  · rw [if_pos e, if_pos e, if_neg (fun h => h0 h.symm), I.zero]
  · rw [if_neg e, if_neg e, if_neg (fun h => e (I.inj id (k / N) h0 h.symm).symm)]

/-- The loop of `sctk_alloc_region_del_all`, from region `i`. -/
theorem delAll_eq (own : Nat → Option Nat) (n : Nat) {s : S} (I : Inv s) (i : Nat) (e : 256 - i = n) :
    ∃ s', delAll own s i = .ok s' ∧ Inv s' ∧ ∀ j, s'.glob j = if i ≤ j then 0 else s.glob j := by
  induction n generalizing s i with
  | zero =>
    rw [delAll, if_neg (by omega)]
    refine ⟨s, rfl, I, fun j => ?_⟩
    split
    · exact I.out j (by omega)
    · rfl
  | succ n ih =>
    have hi : i < 256 := by omega
    rw [delAll, if_pos hi]
    by_cases h0 : s.glob i = 0
    · rw [if_neg (by simpa using h0)]
      obtain ⟨s', h1, h2, h3⟩ := ih I (i + 1) (by omega)
      refine ⟨s', h1, h2, fun j => ?_⟩
      rw [h3 j]
      by_cases hj : j = i
      · rw [hj, h0]; simp
      · by_cases hj2 : i ≤ j
        · rw [if_pos hj2, if_pos (by omega)]
        · rw [if_neg hj2, if_neg (by omega)]
    · rw [if_pos h0]
      have hd := delChain_null own I i
      rw [if_neg h0] at hd
      have hgw : (wipe s i).glob = s.glob := (I.delChain (.inr (I.live _ h0)) hd).2.1
      have hr := delRegion own I i
      rw [hd, Outcome.ok_bind, if_neg h0] at hr
      rw [hd, Outcome.ok_bind, hgw, hr, Outcome.ok_bind]
      obtain ⟨s', h1, h2, h3⟩ := ih (I.drop i) (i + 1) (by omega)
      refine ⟨s', h1, h2, fun j => ?_⟩
      rw [h3 j]
      show (if i + 1 ≤ j then 0 else if j = i then 0 else s.glob j) = _
      by_cases hj : j = i
      · rw [if_neg (by omega), if_pos hj, if_pos (by omega)]
      · by_cases hj2 : i ≤ j
        · rw [if_pos hj2, if_pos (by omega)]
        · rw [if_neg hj2, if_neg (by omega), if_neg hj]

/-- One turn of the loop of the clean-up of a default source. -/
theorem cleanLoop_turn (own : Nat → Option Nat) {s : S} (I : Inv s) {end_ cur : Nat} (hc : cur < end_) (h : cur / TB1 < 256) :
    cleanLoop own s end_ cur =
      cleanLoop own (if s.glob (cur / TB1) = 0 then s else drop s (cur / TB1)) end_ (add64 cur TB1) := by
  have hr := delRegion own I (cur / TB1)
  rw [delChain_null own I, Outcome.ok_bind] at hr
  rw [cleanLoop, if_pos hc]
  unfold get
  rw [if_neg (by omega), Outcome.ok_bind, delChain_null own I, Outcome.ok_bind, hr, Outcome.ok_bind]

end MpcAlloc.RegionDel

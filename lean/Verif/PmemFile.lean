import Verif.Pmem
import Verif.NumaStat

/-
Creation and destruction of a persistent memory pool (/repo/src/sctk_alloc_pmem.c 25-202, 216-219). Definitions and lemmas.
-/

namespace MpcAlloc
namespace PmemFile

open Pmem (Desc)
open NumaStat (pagesOf)

/-! ## Rounding of the size -/

/-- Conversion of an unsigned 64 bit integer to `float`: 24 significant bits, to nearest, ties to even. The result is an integer,
since it is at most 2^64 and integers below 2^24 are exact. -/
def f32 (x : Nat) : Nat :=
  let u := 2 ^ (Nat.log2 x - 23)
  (if u < 2 * (x % u) ∨ (u = 2 * (x % u) ∧ x / u % 2 = 1) then x / u + 1 else x / u) * u

/-- `SCTK_ROUNDUP(*size, alignment)`, sctk_alloc_pmem.h 49 and sctk_alloc_pmem.c 57, for the page size 4096:
`ceil((float)*size/alignment)*alignment`. The division by a power of 2, `ceil` and the product are exact. The conversion of 2^64 back to
`size_t` is undefined (C11 6.3.1.4). -/
def roundup (x : Nat) : Outcome Nat :=
  let r := (f32 x + 4095) / 4096 * 4096
  if r < W64 then .ok r else .ub

/-! ## The process -/

/-- What the pools use: the descriptors that were allocated and not freed, the open files, the pages that are mapped. -/
structure World where
  descs : Nat → Option Desc
  fds : Finset Nat
  pages : Finset Nat

def World.put (w : World) (a : Nat) (d : Option Desc) : World :=
  { w with descs := fun x => if x = a then d else w.descs x }

/-- `st_mode`. -/
inductive Kind
  | chr
  | dir
  | other

/-- The answers of the system: to `malloc` (0 for NULL), `access`, `stat`, `realpath`, `open`, `posix_fadvise`, `posix_fallocate`,
`mmap`. -/
structure Ans where
  desc : Nat
  access : Bool
  stat : Bool
  kind : Kind
  realpath : Bool
  fd : Option Nat
  fadvise : Bool
  fallocate : Bool
  map : Option Nat

/-- `SCTK_PMEM_FILE_TYPE`, sctk_alloc_pmem.h 55-60. -/
inductive FType
  | error
  | dax
  | regular

/-- `get_file_type`, sctk_alloc_pmem.c 118-173. The result of `stat` is not looked at: when it fails its structure is not
initialised. -/
def fileType (a : Ans) : Outcome FType :=
  if a.access = false then .ok .error
  else if a.stat = false then .ub
  else match a.kind with
  | .chr => .ok (if a.realpath then .dax else .error)
  | .dir => .ok .regular
  | .other => .ok .error

/-- `allocate_file_space`, 197-201: lengths that are 0 or negative as `off_t` are refused. -/
def fallocate (a : Ans) (n : Nat) : Bool := a.fallocate && decide (0 < n ∧ n < W63)

/-- The part of `sctk_pmem_create` from the mapping on, 79-93. `mmap` returns `MAP_FAILED`, all bits set, when it fails, which is
not NULL. -/
def createMap (a : Ans) (w : World) (f n : Nat) : World × Nat × Nat :=
  let (base, pages) := match a.map with
    | some b => (b, w.pages ∪ pagesOf b n)
    | none => (W64 - 1, w.pages)
  if base = 0 then ({ w with pages := pages }, 0, n)
  else (({ w with pages := pages, fds := w.fds.erase f }).put a.desc (some ⟨0, n, base, base⟩), a.desc, n)

/-- `sctk_pmem_create`, 25-109: descriptor (0 for NULL) and new value of `*size`. When `open` fails the file is -1, which
`posix_fadvise` refuses. -/
def create (a : Ans) (w : World) (size : Nat) : Outcome (World × Nat × Nat) :=
  if a.desc = 0 then .ub
  else do
    let w := w.put a.desc (some ⟨0, 0, 0, 0⟩)
    match ← fileType a with
    | .error => return (w, 0, size)
    | .dax => do
      let n ← roundup size
      return (w.put a.desc none, 0, n)
    | .regular => do
      let n ← roundup size
      match a.fd with
      | none => return (w, 0, n)
      | some f =>
        let w := { w with fds := insert f w.fds }
        if a.fadvise = false then return (w, 0, n)
        else if fallocate a n = false then return (w, 0, n)
        else return createMap a w f n

/-- `sctk_pmem_malloc` through the descriptor at `p`. -/
def malloc (w : World) (p size : Nat) : Outcome (World × Nat) :=
  match w.descs p with
  | none => .ub
  | some d => .ok (w.put p (some (Pmem.malloc d size).1), (Pmem.malloc d size).2)

/-- `sctk_pmem_free`, 216-219: the bytes are cleared, the descriptor is not looked at. -/
def free (m : Mem) (size ptr : Nat) : Mem := fun x => if ptr ≤ x ∧ x < ptr + size then 0 else m x

/-- `sctk_pmem_destroy`, 111-117. `munmap` removes all pages with a byte of the range, and refuses a start that is not on a page, and
the length 0. -/
def destroy (w : World) (p size : Nat) : Outcome (World × Int) :=
  match w.descs p with
  | none => .ub
  | some d =>
    if d.start % 4096 = 0 ∧ size ≠ 0 then .ok (({ w with pages := w.pages \ pagesOf d.start size }).put p none, 0)
    else .ok (w.put p none, -1)

/-! ## Lemmas -/

theorem f32_small {x : Nat} (h : x < 16777216) : f32 x = x := by
  have : Nat.log2 x - 23 = 0 := by
    by_cases h0 : x = 0
    · subst h0; rfl
    · have := (Nat.log2_lt h0).2 (show x < 2 ^ 24 by omega)
      omega
  unfold f32
  simp only [this]
  rw [if_neg (by omega)]
  omega

/-- Numbers with 24 significant bits are kept. -/
theorem f32_exact {k e : Nat} (h : k < 16777216) : f32 (k * 2 ^ e) = k * 2 ^ e := by
  by_cases h0 : k = 0
  · subst h0; rw [Nat.zero_mul]; exact f32_small (by omega)
  have hpos : k * 2 ^ e ≠ 0 := Nat.mul_ne_zero h0 (Nat.pos_iff_ne_zero.1 (Nat.two_pow_pos e))
  have hlt : Nat.log2 (k * 2 ^ e) < 24 + e := by
    refine (Nat.log2_lt hpos).2 ?_
    rw [Nat.pow_add]
    exact (Nat.mul_lt_mul_right (Nat.two_pow_pos e)).2 h
  have hd : 2 ^ (Nat.log2 (k * 2 ^ e) - 23) ∣ k * 2 ^ e :=
    Nat.dvd_trans (Nat.pow_dvd_pow 2 (by omega)) (Nat.dvd_mul_left _ k)
  unfold f32
  simp only
  have hm := Nat.mod_eq_zero_of_dvd hd
  have hu : 0 < 2 ^ (Nat.log2 (k * 2 ^ e) - 23) := Nat.two_pow_pos _
  rw [if_neg (by rw [hm]; omega)]
  exact Nat.div_mul_cancel hd

/-- Rounding to a multiple of `u`: at most half of `u` away. -/
theorem near {x u : Nat} (hu : 0 < u) {c : Prop} [Decidable c] (h1 : u < 2 * (x % u) → c) (h2 : c → u ≤ 2 * (x % u)) :
    x ≤ (if c then x / u + 1 else x / u) * u + u / 2 ∧ (if c then x / u + 1 else x / u) * u ≤ x + u / 2 := by
  have hx : x / u * u + x % u = x := by rw [Nat.mul_comm]; exact Nat.div_add_mod x u
  have hl := Nat.mod_lt x hu
  by_cases hc : c
  · rw [if_pos hc, Nat.add_mul]
    have := h2 hc
    omega
  · rw [if_neg hc]
    have : ¬ u < 2 * (x % u) := fun h => hc (h1 h)
    omega

/-- The error is at most one part in 2^24. -/
theorem f32_near {x : Nat} (hx : 0 < x) : x ≤ f32 x + x / 16777216 ∧ f32 x ≤ x + x / 16777216 := by
  by_cases hs : x < 16777216
  · rw [f32_small hs]; omega
  have hl : 2 ^ Nat.log2 x ≤ x := Nat.log2_self_le (by omega)
  have hge : 24 ≤ Nat.log2 x := (Nat.le_log2 (by omega)).2 (by omega)
  obtain ⟨e, he⟩ : ∃ e, Nat.log2 x = e + 24 := ⟨Nat.log2 x - 24, by omega⟩
  have hu : (2 : Nat) ^ (Nat.log2 x - 23) = 2 * 2 ^ e := by
    rw [he, show e + 24 - 23 = e + 1 by omega, Nat.pow_succ]; omega
  have hb : 2 ^ e ≤ x / 16777216 := by
    rw [Nat.le_div_iff_mul_le (by omega)]
    rw [he, Nat.pow_add] at hl
    exact hl
  unfold f32
  simp only [hu]
  have := near (x := x) (u := 2 * 2 ^ e) (by have := Nat.two_pow_pos e; omega)
    (c := 2 * 2 ^ e < 2 * (x % (2 * 2 ^ e)) ∨ (2 * 2 ^ e = 2 * (x % (2 * 2 ^ e)) ∧ x / (2 * 2 ^ e) % 2 = 1))
    (fun h => .inl h) (fun h => by rcases h with h | h <;> omega)
  rw [show 2 * 2 ^ e / 2 = 2 ^ e by omega] at this
  omega

theorem roundup_ok {x : Nat} (h : f32 x < W64 - 4095) : roundup x = .ok ((f32 x + 4095) / 4096 * 4096) := by
  unfold roundup
  simp only
  rw [if_pos (by omega)]

end PmemFile
end MpcAlloc

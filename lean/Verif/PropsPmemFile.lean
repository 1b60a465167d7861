import Verif.PmemFile

/-
C62: creation and destruction of a persistent memory pool.
-/

namespace MpcAlloc
namespace PmemFile

open Pmem (Desc)
open NumaStat (pagesOf)

/-! ## Specification -/

/-- `n` is `x` rounded up to pages. -/
def Rounded (x n : Nat) : Prop := n % 4096 = 0 ∧ x ≤ n ∧ n < x + 4096

/-- The system does all that is asked for: the descriptor `p` and the file `f` are new, `n` bytes are mapped at `b` on pages that were not
mapped. -/
structure Good (a : Ans) (w : World) (p f b n : Nat) : Prop where
  desc : a.desc = p
  desc0 : p ≠ 0
  fresh : w.descs p = none
  access : a.access = true
  stat : a.stat = true
  kind : a.kind = .dir
  fd : a.fd = some f
  fdFresh : f ∉ w.fds
  fadvise : a.fadvise = true
  fallocate : a.fallocate = true
  map : a.map = some b
  base0 : b ≠ 0
  base : b % 4096 = 0
  room : b + n < W64
  mapFresh : Disjoint w.pages (pagesOf b n)

/-- A sequence of requests to the pool at `p`: the blocks, last one first. -/
def serve (p : Nat) : World → List Nat → List (Nat × Nat) → Outcome (World × List (Nat × Nat))
  | w, [], acc => .ok (w, acc)
  | w, n :: l, acc => do
    let (w, q) ← malloc w p n
    serve p w l (if q = 0 then acc else (q, n) :: acc)

/-! ## The size -/

/-- **C62** (size; partial: at most 2^24 bytes, or 24 significant bits). The size is rounded up to pages. -/
theorem C62_round_partial {x : Nat} (h : x ≤ 16777216 ∨ ∃ k e, k < 16777216 ∧ x = k * 2 ^ e ∧ x ≤ W63) :
    ∃ n, roundup x = .ok n ∧ Rounded x n := by
  have key : f32 x = x ∧ x ≤ W63 := by
    rcases h with h | ⟨k, e, hk, rfl, hx⟩
    · refine ⟨?_, by omega⟩
      rcases Nat.lt_or_ge x 16777216 with h1 | h1
      · exact f32_small h1
      · have : x = 8388608 * 2 ^ 1 := by omega
        rw [this]; exact f32_exact (by omega)
    · exact ⟨f32_exact hk, hx⟩
  refine ⟨_, roundup_ok (by omega), ?_⟩
  rw [key.1]
  refine ⟨?_, ?_, ?_⟩ <;> omega

/-- **C62** (size). For all sizes up to 2^62 the size is a number of pages, wrong by at most one part in 2^24. -/
theorem C62_size {x : Nat} (h0 : 0 < x) (hx : x ≤ 4611686018427387904) : ∃ n, roundup x = .ok n ∧ n % 4096 = 0 ∧ 0 < n ∧
    n < W63 ∧ x ≤ n + x / 16777216 ∧ n < x + x / 16777216 + 4096 := by
  have := f32_near h0
  refine ⟨_, roundup_ok (by omega), ?_⟩
  refine ⟨?_, ?_, ?_, ?_, ?_⟩ <;> omega

theorem f32_plus {P x : Nat} (hP : 0 < P) (hu : 2 ^ (Nat.log2 x - 23) = 2 * P) (hx : x = 8388608 * (2 * P) + 1) :
    f32 x = 8388608 * (2 * P) := by
  unfold f32
  simp only [hu]
  have h1 : x % (2 * P) = 1 := by rw [hx, Nat.mul_add_mod_self_right, Nat.mod_eq_of_lt (by omega)]
  have h2 : x / (2 * P) = 8388608 := by
    rw [hx, Nat.mul_comm, Nat.mul_add_div (by omega), Nat.div_eq_of_lt (by omega)]
  rw [h1, h2, if_neg (by omega)]

/-- **C62** is false of the code: the size goes through a `float`, so that 2^k + 1 bytes become 2^k for each k from 24 on; the pool
is smaller than what was asked for. -/
theorem C62_refuted_round {k : Nat} (hk : 24 ≤ k) (hk' : k < 64) : roundup (2 ^ k + 1) = .ok (2 ^ k) := by
  obtain ⟨e, rfl⟩ : ∃ e, k = e + 24 := ⟨k - 24, by omega⟩
  have hp := Nat.two_pow_pos e
  have hlt : (2 : Nat) ^ e ≤ 2 ^ 39 := Nat.pow_le_pow_right (by decide) (by omega)
  have hl : Nat.log2 (2 ^ (e + 24) + 1) = e + 24 := by
    have hq := Nat.two_pow_pos (e + 24)
    refine (Nat.log2_eq_iff (by omega)).2 ⟨Nat.le_succ _, ?_⟩
    have h3 : (2 : Nat) ^ (e + 24 + 1) = 2 ^ (e + 24) * 2 := Nat.pow_succ _ _
    rw [h3]
    have h4 : (2 : Nat) ^ 1 ≤ 2 ^ (e + 24) := Nat.pow_le_pow_right (by decide) (by omega)
    generalize (2 : Nat) ^ (e + 24) = Q at *
    omega
  have hu : (2 : Nat) ^ (Nat.log2 (2 ^ (e + 24) + 1) - 23) = 2 * 2 ^ e := by
    rw [hl, show e + 24 - 23 = e + 1 from rfl, Nat.pow_succ, Nat.mul_comm]
  have hpow : (2 : Nat) ^ (e + 24) = 8388608 * (2 * 2 ^ e) := by
    rw [Nat.pow_add]
    generalize (2 : Nat) ^ e = P
    omega
  rw [hpow] at hu ⊢
  generalize (2 : Nat) ^ e = P at *
  have hf := f32_plus hp hu rfl
  have hr : (8388608 * (2 * P) + 4095) / 4096 * 4096 = 8388608 * (2 * P) := by omega
  rw [roundup_ok (by rw [hf]; omega), hf, hr]

/-- **C62** is false of the code: the largest 2^39 sizes become 2^64 as `float`, and the conversion back is undefined. -/
theorem C62_refuted_huge {x : Nat} (h1 : 18446743523953737728 ≤ x) (h2 : x < W64) : roundup x = .ub := by
  have hl : Nat.log2 x = 63 := by
    have h3 : 63 ≤ Nat.log2 x := (Nat.le_log2 (by omega)).2 (by omega)
    have h4 : Nat.log2 x < 64 := (Nat.log2_lt (by omega)).2 (by omega)
    omega
  have hf : f32 x = W64 := by
    unfold f32
    simp only [hl]
    have hq : x / 1099511627776 = 16777215 := by omega
    rw [show (2 : Nat) ^ (63 - 23) = 1099511627776 by decide, hq, if_pos (by omega)]
  unfold roundup
  rw [hf]
  rfl

/-! ## Creation -/

/-- **C62** (creation). When the system does all that is asked for, the descriptor is that of an empty pool of the rounded size on
the new mapping; the file is closed again, and nothing else is changed. -/
theorem C62_create {a : Ans} {w : World} {p f b n x : Nat} (hr : roundup x = .ok n) (h0 : 0 < n) (hn : n < W63)
    (G : Good a w p f b n) : ∃ w', create a w x = .ok (w', p, n) ∧ w'.descs p = some ⟨0, n, b, b⟩ ∧
      (∀ q, q ≠ p → w'.descs q = w.descs q) ∧ w'.fds = w.fds ∧ w'.pages = w.pages ∪ pagesOf b n := by
  have ht : fileType a = .ok .regular := by
    unfold fileType
    rw [if_neg (by simp [G.access]), if_neg (by simp [G.stat]), G.kind]
  have hfa : fallocate a n = true := by
    unfold fallocate
    rw [G.fallocate, decide_eq_true ⟨h0, hn⟩]; rfl
  unfold create
  rw [if_neg (by rw [G.desc]; exact G.desc0), ht, Outcome.ok_bind]
  simp only
  rw [hr, Outcome.ok_bind, G.fd]
  simp only
  rw [if_neg (by simp [G.fadvise]), if_neg (by simp [hfa])]
  unfold createMap
  rw [G.map, G.desc]
  simp only
  rw [if_neg G.base0]
  refine ⟨_, rfl, ?_, ?_, ?_, ?_⟩
  · simp [World.put]
  · intro q hq
    simp [World.put, hq]
  · simp [World.put, G.fdFresh]
  · simp [World.put]

/-- Requests keep all but the descriptor, of which the start and the size are kept. -/
theorem serve_keeps {p : Nat} : ∀ (l : List Nat) {w w' : World} {d : Desc} {acc acc' : List (Nat × Nat)}, w.descs p = some d →
    serve p w l acc = .ok (w', acc') → (∀ q, q ≠ p → w'.descs q = w.descs q) ∧ w'.fds = w.fds ∧ w'.pages = w.pages ∧
      w'.descs p = some (Pmem.blocks d l acc).1 ∧ acc' = (Pmem.blocks d l acc).2
  | [], w, w', d, acc, acc', hd, e => by
    unfold serve at e
    have e := Outcome.ok.inj e
    rw [← (Prod.mk.inj e).1, ← (Prod.mk.inj e).2]
    exact ⟨fun _ _ => rfl, rfl, rfl, hd, rfl⟩
  | n :: l, w, w', d, acc, acc', hd, e => by
    unfold serve malloc at e
    rw [hd] at e
    simp only at e
    rw [Outcome.ok_bind] at e
    simp only at e
    obtain ⟨h1, h2, h3, h4, h5⟩ := serve_keeps l (d := (Pmem.malloc d n).1) (by simp [World.put]) e
    refine ⟨fun q hq => ?_, h2, h3, h4, h5⟩
    rw [h1 q hq]
    simp [World.put, hq]

theorem serve_ok {p : Nat} : ∀ (l : List Nat) {w : World} {d : Desc} {acc : List (Nat × Nat)}, w.descs p = some d →
    ∃ w' acc', serve p w l acc = .ok (w', acc')
  | [], w, _, acc, _ => ⟨w, acc, rfl⟩
  | n :: l, w, d, acc, hd => by
    unfold serve malloc
    rw [hd]
    simp only
    rw [Outcome.ok_bind]
    simp only
    exact serve_ok l (d := (Pmem.malloc d n).1) (by simp [World.put])

theorem blocks_start : ∀ (l : List Nat) (d : Desc) (acc : List (Nat × Nat)), (Pmem.blocks d l acc).1.start = d.start
  | [], _, _ => rfl
  | n :: l, d, acc => by
    unfold Pmem.blocks
    simp only
    rw [blocks_start l]
    unfold Pmem.malloc
    split <;> rfl

/-- **C62** (blocks; partial: sizes that do not wrap around, see `Pmem.C35_refuted`). All blocks of a new pool are disjoint, and all
their bytes are mapped. -/
theorem C62_blocks_partial {a : Ans} {w : World} {p f b n x : Nat} (hr : roundup x = .ok n) (h0 : 0 < n) (hn : n < W63)
    (G : Good a w p f b n) (l : List Nat) (hl : ∀ k ∈ l, k + n < W64) : ∃ w1 w2 acc, create a w x = .ok (w1, p, n) ∧
      serve p w1 l [] = .ok (w2, acc) ∧ acc.Pairwise (fun c d => c.1 + c.2 ≤ d.1 ∨ d.1 + d.2 ≤ c.1) ∧
      ∀ c ∈ acc, ∀ i, i < c.2 → (c.1 + i) / 4096 ∈ w2.pages := by
  obtain ⟨w1, e1, h1, _, _, h4⟩ := C62_create hr h0 hn G
  obtain ⟨w2, acc, e2⟩ := serve_ok l (acc := []) h1
  obtain ⟨_, _, g3, _, g5⟩ := serve_keeps l h1 e2
  obtain ⟨k1, k2⟩ := Pmem.C35_pool_partial (base := b) (size := n) (Nat.pos_of_ne_zero G.base0) G.room l hl
  refine ⟨w1, w2, acc, e1, e2, by rw [g5]; exact k1, fun c hc i hi => ?_⟩
  rw [g5] at hc
  have := k2 c hc
  rw [g3, h4]
  refine Finset.mem_union_right _ ?_
  unfold pagesOf
  exact Finset.mem_image.2 ⟨c.1 + i - b, Finset.mem_range.2 (by omega), by rw [show b + (c.1 + i - b) = c.1 + i by omega]⟩

/-- **C62** (destruction). A pool that is destroyed with the size that the creation returned leaves nothing: the descriptors, the files
and the mappings are what they were before the creation. -/
theorem C62_destroy {a : Ans} {w : World} {p f b n x : Nat} (hr : roundup x = .ok n) (h0 : 0 < n) (hn : n < W63)
    (G : Good a w p f b n) (l : List Nat) : ∃ w1 w2 acc, create a w x = .ok (w1, p, n) ∧ serve p w1 l [] = .ok (w2, acc) ∧
      destroy w2 p n = .ok (w, 0) := by
  obtain ⟨w1, e1, h1, h2, h3, h4⟩ := C62_create hr h0 hn G
  obtain ⟨w2, acc, e2⟩ := serve_ok l (acc := []) h1
  obtain ⟨g1, g2, g3, g4, _⟩ := serve_keeps l h1 e2
  refine ⟨w1, w2, acc, e1, e2, ?_⟩
  have hs : (Pmem.blocks ⟨0, n, b, b⟩ l []).1.start = b := blocks_start l _ _
  unfold destroy
  rw [g4]
  simp only
  rw [hs, if_pos ⟨G.base, by omega⟩]
  congr 2
  have hp : w2.pages \ pagesOf b n = w.pages := by
    rw [g3, h4, Finset.union_sdiff_right]
    exact Finset.sdiff_eq_self_of_disjoint G.mapFresh
  unfold World.put
  simp only [hp, g2, h3]
  congr 1
  funext q
  by_cases hq : q = p
  · rw [if_pos hq, hq, G.fresh]
  · rw [if_neg hq, g1 q hq, h2 q hq]

/-! ## Failures -/

/-- **C62** is false of the code: when the mapping fails the result is a pool all the same (`MAP_FAILED` is compared with NULL), and the
first block of it is at the address -1; nothing was mapped. -/
theorem C62_refuted_map {a : Ans} {w : World} {p f b n x k : Nat} (hr : roundup x = .ok n) (h0 : 0 < n) (hn : n < W63)
    (G : Good { a with map := some b } w p f b n) (hm : a.map = none) (hk : k ≤ n) : ∃ w1 w2, create a w x = .ok (w1, p, n) ∧
      w1.pages = w.pages ∧ malloc w1 p k = .ok (w2, W64 - 1) := by
  have ht : fileType a = .ok .regular := by
    unfold fileType
    have h1 : a.access = true := G.access
    have h2 : a.stat = true := G.stat
    have h3 : a.kind = .dir := G.kind
    rw [if_neg (by simp [h1]), if_neg (by simp [h2]), h3]
  have hfa : fallocate a n = true := by
    unfold fallocate
    have h1 : a.fallocate = true := G.fallocate
    rw [h1, decide_eq_true ⟨h0, hn⟩]; rfl
  have hd : a.desc = p := G.desc
  have hfd : a.fd = some f := G.fd
  have hv : a.fadvise = true := G.fadvise
  have e : ∃ w1, create a w x = .ok (w1, p, n) ∧ w1.pages = w.pages ∧ w1.descs p = some ⟨0, n, W64 - 1, W64 - 1⟩ := by
    unfold create
    rw [if_neg (by rw [hd]; exact G.desc0), ht, Outcome.ok_bind]
    simp only
    rw [hr, Outcome.ok_bind, hfd]
    simp only
    rw [if_neg (by simp [hv]), if_neg (by simp [hfa])]
    unfold createMap
    rw [hm, hd]
    simp only
    rw [if_neg (by omega)]
    exact ⟨_, rfl, rfl, by simp [World.put]⟩
  obtain ⟨w1, e1, e2, e3⟩ := e
  refine ⟨w1, ?_⟩
  unfold malloc
  rw [e3]
  simp only
  have hmal : (Pmem.malloc ⟨0, n, W64 - 1, W64 - 1⟩ k).2 = W64 - 1 := by
    unfold Pmem.malloc
    simp only
    rw [add64_eq (by omega), if_pos (by omega)]
  rw [hmal]
  exact ⟨_, e1, e2, rfl⟩

/-- **C62** (success). A pool is made only in a directory, with a file that has all the space; its size is the rounded one. -/
theorem C62_success {a : Ans} {w w' : World} {x p n : Nat} (hp : p ≠ 0) (e : create a w x = .ok (w', p, n)) :
    p = a.desc ∧ a.access = true ∧ a.kind = .dir ∧ a.fallocate = true ∧ 0 < n ∧ n < W63 ∧ roundup x = .ok n ∧
      ∃ f, a.fd = some f ∧ f ∉ w'.fds := by
  unfold create at e
  split at e
  · cases e
  obtain ⟨t, ht, e⟩ := Outcome.bind_eq_ok e
  cases t with
  | error => exact absurd (Prod.mk.inj (Prod.mk.inj (Outcome.ok.inj e)).2).1.symm hp
  | dax =>
    obtain ⟨k, _, e⟩ := Outcome.bind_eq_ok e
    exact absurd (Prod.mk.inj (Prod.mk.inj (Outcome.ok.inj e)).2).1.symm hp
  | regular =>
    obtain ⟨k, hk, e⟩ := Outcome.bind_eq_ok e
    simp only at e
    split at e
    · exact absurd (Prod.mk.inj (Prod.mk.inj (Outcome.ok.inj e)).2).1.symm hp
    · rename_i f hf
      split at e
      · exact absurd (Prod.mk.inj (Prod.mk.inj (Outcome.ok.inj e)).2).1.symm hp
      · split at e
        · exact absurd (Prod.mk.inj (Prod.mk.inj (Outcome.ok.inj e)).2).1.symm hp
        · rename_i hfa
          have e := Outcome.ok.inj e
          have hty : a.access = true ∧ a.kind = .dir := by
            unfold fileType at ht
            split at ht
            · cases ht
            · rename_i hac
              split at ht
              · cases ht
              · split at ht
                · split at ht <;> cases ht
                · rename_i hkd
                  exact ⟨by simpa using hac, hkd⟩
                · cases ht
          have hfa' : a.fallocate = true ∧ 0 < k ∧ k < W63 := by
            have : fallocate a k = true := by simpa using hfa
            unfold fallocate at this
            rw [Bool.and_eq_true] at this
            exact ⟨this.1, of_decide_eq_true this.2⟩
          have key : ∀ (base : Nat) (w1 w2 : World), f ∉ w2.fds →
              (if base = 0 then (w1, 0, k) else (w2, a.desc, k)) = (w', p, n) → p = a.desc ∧ n = k ∧ f ∉ w'.fds := by
            intro base w1 w2 h2 e
            split at e
            · exact absurd (Prod.mk.inj (Prod.mk.inj e).2).1.symm hp
            · obtain ⟨e1, e2⟩ := Prod.mk.inj e
              obtain ⟨e2, e3⟩ := Prod.mk.inj e2
              exact ⟨e2.symm, e3.symm, e1 ▸ h2⟩
          have hend : p = a.desc ∧ n = k ∧ f ∉ w'.fds := by
            unfold createMap at e
            cases hm : a.map with
            | none => rw [hm] at e; exact key _ _ _ (by simp [World.put]) e
            | some b => rw [hm] at e; exact key _ _ _ (by simp [World.put]) e
          obtain ⟨e1, rfl, e3⟩ := hend
          exact ⟨e1, hty.1, hty.2, hfa'.1, hfa'.2.1, hfa'.2.2, hk, f, hf, e3⟩

/-- **C62** (failure; partial). A creation that returns NULL has mapped nothing, and has closed no file and changed no
descriptor. -/
theorem C62_null_partial {a : Ans} {w w' : World} {x n : Nat} (hb : a.map ≠ some 0) (e : create a w x = .ok (w', 0, n)) :
    w'.pages = w.pages ∧ w.fds ⊆ w'.fds ∧ ∀ q, q ≠ a.desc → w'.descs q = w.descs q := by
  unfold create at e
  split at e
  · cases e
  rename_i h0
  have hput : ∀ d, ∀ q, q ≠ a.desc → (w.put a.desc d).descs q = w.descs q := by
    intro d q hq
    simp [World.put, hq]
  obtain ⟨t, _, e⟩ := Outcome.bind_eq_ok e
  cases t with
  | error =>
    have e := (Prod.mk.inj (Outcome.ok.inj e)).1
    subst e
    exact ⟨rfl, Finset.Subset.refl _, hput _⟩
  | dax =>
    obtain ⟨k, _, e⟩ := Outcome.bind_eq_ok e
    have e := (Prod.mk.inj (Outcome.ok.inj e)).1
    subst e
    refine ⟨rfl, Finset.Subset.refl _, fun q hq => ?_⟩
    simp [World.put, hq]
  | regular =>
    obtain ⟨k, _, e⟩ := Outcome.bind_eq_ok e
    simp only at e
    split at e
    · have e := (Prod.mk.inj (Outcome.ok.inj e)).1
      subst e
      exact ⟨rfl, Finset.Subset.refl _, hput _⟩
    · split at e
      · have e := (Prod.mk.inj (Outcome.ok.inj e)).1
        subst e
        exact ⟨rfl, Finset.subset_insert _ _, hput _⟩
      · split at e
        · have e := (Prod.mk.inj (Outcome.ok.inj e)).1
          subst e
          exact ⟨rfl, Finset.subset_insert _ _, hput _⟩
        · exfalso
          have e := Outcome.ok.inj e
          unfold createMap at e
          cases hm : a.map with
          | none =>
            rw [hm] at e
            simp only at e
            rw [if_neg (by omega)] at e
            exact h0 (Prod.mk.inj (Prod.mk.inj e).2).1
          | some b =>
            rw [hm] at e hb
            simp only at e
            rw [if_neg (fun h => hb (by rw [h]))] at e
            exact h0 (Prod.mk.inj (Prod.mk.inj e).2).1

/-- **C62** is false of the code: a creation that fails (no such directory, no directory, no temporary file, no space) keeps its
descriptor, and, when there is no space, its file; nobody has a pointer to them. -/
theorem C62_refuted_leak {a : Ans} {w : World} {x : Nat} (hd : a.desc ≠ 0) :
    (fileType a = .ok .error → ∃ w', create a w x = .ok (w', 0, x) ∧ w'.descs a.desc ≠ none) ∧
    ∀ n, fileType a = .ok .regular → roundup x = .ok n → 
      (a.fd = none → ∃ w', create a w x = .ok (w', 0, n) ∧ w'.descs a.desc ≠ none) ∧
      ∀ f, a.fd = some f → (a.fadvise = false ∨ a.fallocate = false) →
        ∃ w', create a w x = .ok (w', 0, n) ∧ w'.descs a.desc ≠ none ∧ f ∈ w'.fds := by
  unfold create
  rw [if_neg hd]
  refine ⟨fun ht => ?_, fun n ht hr => ⟨fun hf => ?_, fun f hf hx => ?_⟩⟩
  · rw [ht, Outcome.ok_bind]
    exact ⟨_, rfl, by simp [World.put]⟩
  · rw [ht, Outcome.ok_bind]
    simp only
    rw [hr, Outcome.ok_bind, hf]
    exact ⟨_, rfl, by simp [World.put]⟩
  · rw [ht, Outcome.ok_bind]
    simp only
    rw [hr, Outcome.ok_bind, hf]
    simp only
    by_cases hv : a.fadvise = false
    · rw [if_pos hv]
      exact ⟨_, rfl, by simp [World.put], by simp [World.put]⟩
    · have hfa : fallocate a n = false := by
        unfold fallocate
        rcases hx with hx | hx
        · exact absurd hx hv
        · rw [hx]; rfl
      rw [if_neg hv, if_pos hfa]
      exact ⟨_, rfl, by simp [World.put], by simp [World.put]⟩

/-! ## Blocks given back -/

/-- **C62** (free). Clearing a block leaves the bytes of all blocks disjoint from it. -/
theorem C62_free (m : Mem) {n p k q : Nat} (h : p + n ≤ q ∨ q + k ≤ p) :
    (∀ i, i < n → free m n p (p + i) = 0) ∧ ∀ i, i < k → free m n p (q + i) = m (q + i) := by
  unfold free
  refine ⟨fun i hi => if_pos (by omega), fun i hi => if_neg (by omega)⟩

/-- **C62** is false of the code: `sctk_pmem_free` has no access to what the pool has left (the descriptor is not changed by it), so a pool
that has given all its bytes gives NULL ever after. -/
theorem C62_refuted_reuse {w : World} {p k : Nat} {d : Desc} (hd : w.descs p = some d) (hc : d.curSize = d.maxSize)
    (hk : 0 < k) (hw : k + d.maxSize < W64) : ∃ w', malloc w p k = .ok (w', 0) ∧ w'.descs p = some d := by
  unfold malloc
  rw [hd]
  simp only
  have : Pmem.malloc d k = (d, 0) := by
    unfold Pmem.malloc
    rw [hc, add64_eq hw, if_neg (by omega)]
  rw [this]
  exact ⟨_, rfl, by simp [World.put]⟩

/-! ## Concrete cases -/

/-- A process with one open file and one mapped page; the answers for a pool of two pages at 65536. -/
def w0 : World := ⟨fun _ => none, {0}, {2}⟩

def good : Ans := ⟨4096, true, true, .dir, true, some 3, true, true, some 65536⟩

theorem good_good : Good good w0 4096 3 65536 8192 where
  desc := rfl
  desc0 := by omega
  fresh := rfl
  access := rfl
  stat := rfl
  kind := rfl
  fd := rfl
  fdFresh := by decide
  fadvise := rfl
  fallocate := rfl
  map := rfl
  base0 := by omega
  base := by omega
  room := by omega
  mapFresh := by
    rw [Finset.disjoint_left]
    intro q hq hq'
    have : q = 2 := by simpa [w0] using hq
    simp only [pagesOf, Finset.mem_image, Finset.mem_range] at hq'
    obtain ⟨i, _, hi⟩ := hq'
    omega

theorem round_5000 : roundup 5000 = .ok 8192 := by
  rw [roundup_ok (by rw [f32_small (by omega)]; omega), f32_small (by omega)]

example : ∃ n, roundup 5000 = .ok n ∧ Rounded 5000 n := C62_round_partial (.inl (by omega))

/-- 8 GB. -/
example : ∃ n, roundup 8589934592 = .ok n ∧ Rounded 8589934592 n :=
  C62_round_partial (.inr ⟨8, 30, by omega, by decide, by omega⟩)

/-- 16 MB and one byte. -/
example : roundup 16777217 = .ok 16777216 := C62_refuted_round (k := 24) (by omega) (by omega)

/-- 64 GB and one page: a page is lost. -/
example : ∃ n, roundup 68719480832 = .ok n ∧ n % 4096 = 0 := by
  obtain ⟨n, e, h, _⟩ := C62_size (x := 68719480832) (by omega) (by omega)
  exact ⟨n, e, h⟩

example : roundup 18446744073709551615 = .ub := C62_refuted_huge (by omega) (by omega)

example : ∃ w1 w2 acc, create good w0 5000 = .ok (w1, 4096, 8192) ∧ serve 4096 w1 [100, 9000, 50] [] = .ok (w2, acc) ∧
    destroy w2 4096 8192 = .ok (w0, 0) :=
  C62_destroy round_5000 (by omega) (by omega) good_good _

example : ∃ w1 w2 acc, create good w0 5000 = .ok (w1, 4096, 8192) ∧ serve 4096 w1 [100, 9000, 50] [] = .ok (w2, acc) ∧
    acc.Pairwise (fun c d => c.1 + c.2 ≤ d.1 ∨ d.1 + d.2 ≤ c.1) ∧ ∀ c ∈ acc, ∀ i, i < c.2 → (c.1 + i) / 4096 ∈ w2.pages :=
  C62_blocks_partial round_5000 (by omega) (by omega) good_good _ (fun k hk => by simp at hk; omega)

example : ∃ w', create good w0 5000 = .ok (w', 4096, 8192) ∧ 3 ∉ w'.fds := by
  obtain ⟨w', e, _⟩ := C62_create round_5000 (by omega) (by omega) good_good
  obtain ⟨_, _, _, _, _, _, _, f, hf, h⟩ := C62_success (by omega) e
  refine ⟨w', e, ?_⟩
  rwa [← Option.some.inj hf] at h

example : ∃ w1 w2, create { good with map := none } w0 5000 = .ok (w1, 4096, 8192) ∧ w1.pages = w0.pages ∧
    malloc w1 4096 100 = .ok (w2, W64 - 1) :=
  C62_refuted_map (b := 65536) round_5000 (by omega) (by omega) good_good rfl (by omega)

example : ∃ w', create { good with fallocate := false } w0 5000 = .ok (w', 0, 8192) ∧ w'.descs 4096 ≠ none ∧ 3 ∈ w'.fds :=
  ((C62_refuted_leak (a := { good with fallocate := false }) (w := w0) (x := 5000) (by decide)).2 8192 rfl round_5000).2 3 rfl
    (.inr rfl)

example : ∃ w', create { good with access := false } w0 5000 = .ok (w', 0, 5000) ∧ w'.descs 4096 ≠ none ∧ w'.pages = w0.pages := by
  obtain ⟨w', e, h⟩ := (C62_refuted_leak (a := { good with access := false }) (w := w0) (x := 5000) (by decide)).1 rfl
  exact ⟨w', e, h, (C62_null_partial (by simp [good]) e).1⟩

example : ∃ w', malloc (w0.put 4096 (some ⟨8192, 8192, 73728, 65536⟩)) 4096 1 = .ok (w', 0) ∧
    w'.descs 4096 = some ⟨8192, 8192, 73728, 65536⟩ :=
  C62_refuted_reuse (by simp [World.put]) rfl (by omega) (by decide)

example (m : Mem) : (∀ i, i < 100 → free m 100 65536 (65536 + i) = 0) ∧
    ∀ i, i < 50 → free m 100 65536 (65636 + i) = m (65636 + i) := C62_free m (.inl (by omega))

end PmemFile
end MpcAlloc

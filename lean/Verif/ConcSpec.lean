import Verif.ConcPosix

/-
What the client may rely on when the calls of several threads interleave (C49, C50, C51).
-/

namespace MpcAlloc

/-- What the client sees when the call `c` of `t` returns `r`: `k` and `k'` are the states around the step that ends it. A
block that was resized belongs to one of the threads `W`. -/
def Returned (W : Nat → Prop) (k : MS) (t : Nat) (c : MRec) (k' : MS) (r : Nat) : Prop :=
  match c.op with
  | .malloc b n => r ≠ 0 ∧ (1 < b → b ∣ r) ∧ (b ≤ 1 → 16 ∣ r) ∧
      ∀ l, l ∈ k'.G.live ↔ l = ⟨t, r, n, decide (b ≤ 1)⟩ ∨ l ∈ k.G.live
  | .calloc b n j => r ≠ 0 ∧ (1 < b → b ∣ r) ∧ (b ≤ 1 → 16 ∣ r) ∧ (∀ i, i < n * j → k'.w.mem (r + i) = 0) ∧
      ∀ l, l ∈ k'.G.live ↔ l = ⟨t, r, n * j, decide (b ≤ 1)⟩ ∨ l ∈ k.G.live
  | .free _ => ∀ l, l ∈ k'.G.live ↔ l ∈ k.G.live
  | .realloc p b n =>
      (p = 0 → r ≠ 0 ∧ (1 < b → b ∣ r) ∧ (b ≤ 1 → 16 ∣ r) ∧
        ∀ l, l ∈ k'.G.live ↔ l = ⟨t, r, n, decide (b ≤ 1)⟩ ∨ l ∈ k.G.live) ∧
      (p ≠ 0 → n = 0 → r = 0 ∧ ∀ l, l ∈ k'.G.live ↔ l ∈ k.G.live) ∧
      (p ≠ 0 → n ≠ 0 → r ≠ 0 ∧ (r ≠ p → (1 < b → b ∣ r) ∧ (b ≤ 1 → 16 ∣ r)) ∧
        (∀ l0 ∈ c.live, l0.ptr = p → ∀ i, i < min l0.len n → k'.w.mem (r + i) = c.mem (p + i)) ∧
        ∃ o pl, W o ∧ ∀ l, l ∈ k'.G.live ↔ l = ⟨o, r, n, pl⟩ ∨ l ∈ k.G.live)

/-- What the client sees of a step of thread `t`, which returns from its call if `o` is not empty. -/
structure MOut (W : Nat → Prop) (k k' : MS) (t : Nat) (o : Option Nat) : Prop where
  kept : ∀ l ∈ k.G.live, ∀ x, l.Byte x → k'.w.mem x = k.w.mem x
  same : o = none → ∀ l, l ∈ k'.G.live ↔ l ∈ k.G.live
  ret : ∀ r, o = some r → ∃ c, k.call t = some c ∧ Returned W k t c k' r
  left : ∀ l ∈ k.G.queued, l ∉ k'.G.queued → l.owner = t ∧ ∃ j nxt, k.pc t = .purge j (.dfree l.ptr nxt)
  entered : ∀ l ∈ k'.G.queued, l ∉ k.G.queued → l.owner ≠ t ∧
    ∃ l0 r, (t, l0) ∈ k.G.hand ∧ l = l0.wide ∧ k.pc t = .look l.ptr r

/-- The call makes no aligned block larger. -/
def NoGrow (k : MS) : MCall → Prop
  | .realloc p _ n => ∀ l ∈ k.G.live, l.ptr = p → n = 0 ∨ l.plain = true ∨ n ≤ l.len
  | _ => True

/-- The kernel has memory for the next step of thread `t`. -/
def StepMem (k : MS) (t : Nat) : Prop :=
  match k.pc t with
  | .alloc b n _ => HasMem k.ps (reqSize b n)
  | .rlocal _ _ b n => HasMem k.ps (reqSize b n)
  | _ => True

/-- Steps of thread `t` alone, at most `n`, until its call returns. -/
def alone (C : Config) (t : Nat) : Nat → MS → Outcome (MS × Option Nat)
  | 0, k => .ok (k, none)
  | n + 1, k => do
    let (k, o) ← mstep C k t
    match o with
    | some r => return (k, some r)
    | none => alone C t n k

/-- One step of each of the threads of the list, in order. -/
def sched (C : Config) : List Nat → MS → Outcome MS
  | [], k => .ok k
  | u :: us, k => do
    let (k, _) ← mstep C k u
    sched C us k

end MpcAlloc

/-
Basic layer: outcomes of C code, 64-bit arithmetic, byte memory.
-/

namespace MpcAlloc

/-- Outcome of running a piece of C code: normal result, `abort()` (an `assume_m` or
`sctk_fatal` fired, /repo/src/sctk_alloc_debug.h), undefined behaviour (NULL dereference, index
outside of an array, division by zero), or a loop that never ends. -/
inductive Outcome (α : Type) where
  | ok (a : α)
  | abort
  | ub
  | diverge
deriving Repr, DecidableEq

namespace Outcome

/-- Sequencing: anything but `ok` stops the program. -/
@[simp] def bind {α β : Type} (x : Outcome α) (f : α → Outcome β) : Outcome β :=
  match x with
  | ok a => f a
  | abort => abort
  | ub => ub
  | diverge => diverge

instance : Monad Outcome where
  pure := ok
  bind := bind

@[simp] theorem pure_eq {α : Type} (a : α) : (pure a : Outcome α) = ok a := rfl
@[simp] theorem ok_bind {α β : Type} (a : α) (f : α → Outcome β) : (ok a >>= f) = f a := rfl
@[simp] theorem abort_bind {α β : Type} (f : α → Outcome β) : (abort >>= f) = abort := rfl
@[simp] theorem ub_bind {α β : Type} (f : α → Outcome β) : (ub >>= f) = ub := rfl
@[simp] theorem diverge_bind {α β : Type} (f : α → Outcome β) : (diverge >>= f) = diverge := rfl

theorem bind_eq_ok {α β : Type} {x : Outcome α} {f : α → Outcome β} {b : β}
    (h : (x >>= f) = ok b) : ∃ a, x = ok a ∧ f a = ok b := by
  cases x <;> simp_all

noncomputable section
open Lean.Order

/-- `diverge` is the least outcome: loops are least fixed points. -/
instance (α : Type) : Lean.Order.PartialOrder (Outcome α) :=
  inferInstanceAs (Lean.Order.PartialOrder (FlatOrder (diverge : Outcome α)))
instance (α : Type) : CCPO (Outcome α) :=
  inferInstanceAs (CCPO (FlatOrder (diverge : Outcome α)))

instance : MonoBind Outcome where
  bind_mono_left h := by
    cases h
    · exact FlatOrder.rel.bot
    · exact FlatOrder.rel.refl
  bind_mono_right h := by
    cases ‹Outcome _› with
    | ok a => exact h a
    | abort => exact FlatOrder.rel.refl
    | ub => exact FlatOrder.rel.refl
    | diverge => exact FlatOrder.rel.refl
end

end Outcome

/-! ## 64-bit arithmetic (`size_t`, `sctk_addr_t`: /repo/src/sctk_alloc_types.h) -/

/-- 2^64 -/
notation "W64" => (18446744073709551616 : Nat)
/-- 2^56, the range of the 56-bit bit-fields of chunk headers -/
notation "W56" => (72057594037927936 : Nat)
/-- 2^63 -/
notation "W63" => (9223372036854775808 : Nat)

/-- Unsigned 64-bit addition. -/
def add64 (a b : Nat) : Nat := (a + b) % W64
/-- Unsigned 64-bit subtraction. -/
def sub64 (a b : Nat) : Nat := (a + W64 - b % W64) % W64
/-- Conversion of a 64-bit word to `sctk_ssize_t` (two's complement). -/
def toS (a : Nat) : Int := if a < W63 then (a : Int) else (a : Int) - (W64 : Nat)

theorem add64_eq {a b : Nat} (h : a + b < W64) : add64 a b = a + b := Nat.mod_eq_of_lt h
theorem sub64_eq {a b : Nat} (h : b ≤ a) (h' : a < W64) : sub64 a b = a - b := by
  unfold sub64
  have hb : b % W64 = b := Nat.mod_eq_of_lt (by omega)
  rw [hb]
  omega
theorem add64_lt (a b : Nat) : add64 a b < W64 := Nat.mod_lt _ (by decide)
theorem sub64_lt (a b : Nat) : sub64 a b < W64 := Nat.mod_lt _ (by decide)
theorem toS_eq {a : Nat} (h : a < W63) : toS a = (a : Int) := by simp [toS, h]

/-! ## Byte memory -/

/-- Memory: one byte per address. Addresses are natural numbers; all addresses computed by the model
are below 2^64 because every address computation is done modulo 2^64. -/
abbrev Mem := Nat → UInt8

/-- Little-endian read of an `n` byte unsigned field at address `a` (x86-64 byte order). -/
def readLE (m : Mem) (a : Nat) : Nat → Nat
  | 0 => 0
  | n + 1 => (m a).toNat + 256 * readLE m (a + 1) n

/-- Little-endian write of the low `n` bytes of `v` at address `a`. -/
def writeLE (m : Mem) (a n v : Nat) : Mem :=
  fun x => if a ≤ x ∧ x < a + n then UInt8.ofNat (v / 256 ^ (x - a)) else m x

/-- Two memories agree on the byte range `[a, a+n)`. -/
def AgreeOn (m m' : Mem) (a n : Nat) : Prop := ∀ x, a ≤ x → x < a + n → m' x = m x

theorem readLE_congr {m m' : Mem} {a n : Nat} (h : AgreeOn m m' a n) :
    readLE m' a n = readLE m a n := by
  induction n generalizing a with
  | zero => rfl
  | succ n ih =>
    simp only [readLE]
    rw [h a (Nat.le_refl _) (by omega), ih (fun x hx hx' => h x (by omega) (by omega))]

theorem readLE_lt (m : Mem) (a n : Nat) : readLE m a n < 256 ^ n := by
  induction n generalizing a with
  | zero => simp [readLE]
  | succ n ih =>
    simp only [readLE]
    have h1 := ih (a + 1)
    have h2 := (m a).toNat_lt
    rw [Nat.pow_succ]; omega

theorem writeLE_other {m : Mem} {a n v x : Nat} (h : x < a ∨ a + n ≤ x) :
    writeLE m a n v x = m x := by
  unfold writeLE
  rw [if_neg (by omega)]

theorem agree_writeLE {m : Mem} {a n v b k : Nat} (h : b + k ≤ a ∨ a + n ≤ b) :
    AgreeOn m (writeLE m a n v) b k := by
  intro x h1 h2
  exact writeLE_other (by omega)

theorem readLE_writeLE_other {m : Mem} {a n v b k : Nat} (h : b + k ≤ a ∨ a + n ≤ b) :
    readLE (writeLE m a n v) b k = readLE m b k :=
  readLE_congr (agree_writeLE h)

theorem readLE_writeLE_aux (m : Mem) (a n v k : Nat) (hk : k ≤ n) :
    readLE (writeLE m a n v) (a + (n - k)) k = (v / 256 ^ (n - k)) % 256 ^ k := by
  induction k with
  | zero => simp [readLE, Nat.mod_one]
  | succ k ih =>
    simp only [readLE]
    have e : a + (n - (k + 1)) + 1 = a + (n - k) := by omega
    rw [e, ih (by omega)]
    have hw : (writeLE m a n v (a + (n - (k + 1)))).toNat = (v / 256 ^ (n - (k+1))) % 256 := by
      unfold writeLE
      rw [if_pos (by omega)]
      have : a + (n - (k + 1)) - a = n - (k+1) := by omega
      rw [this]
      simp [UInt8.toNat_ofNat']
    rw [hw]
    have e2 : n - k = (n - (k+1)) + 1 := by omega
    rw [e2, Nat.pow_succ, ← Nat.div_div_eq_div_mul, Nat.pow_succ, Nat.mul_comm (256^k) 256,
      Nat.mod_mul]

/-- Reading back a written field gives the value truncated to the field width. -/
theorem readLE_writeLE_same (m : Mem) (a n v : Nat) :
    readLE (writeLE m a n v) a n = v % 256 ^ n := by
  have := readLE_writeLE_aux m a n v n (Nat.le_refl _)
  simpa using this

theorem AgreeOn.refl (m : Mem) (a n : Nat) : AgreeOn m m a n := fun _ _ _ => rfl
theorem AgreeOn.trans {m m' m'' : Mem} {a n : Nat} (h : AgreeOn m m' a n) (h' : AgreeOn m' m'' a n) :
    AgreeOn m m'' a n := fun x h1 h2 => (h' x h1 h2).trans (h x h1 h2)
theorem AgreeOn.sub {m m' : Mem} {a n b k : Nat} (h : AgreeOn m m' a n) (h1 : a ≤ b)
    (h2 : b + k ≤ a + n) : AgreeOn m m' b k :=
  fun x hx hx' => h x (by omega) (by omega)

end MpcAlloc

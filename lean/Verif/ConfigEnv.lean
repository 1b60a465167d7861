import Verif.Chain

/-
Configuration from the environment, sctk_alloc_config.c.
-/

namespace MpcAlloc

/-- Environment of the process: `getenv`. A value is the list of its characters, without the final zero. -/
abbrev Environ := String → Option (List Char)

/-- `isspace` in the C locale. -/
def isSpaceC (c : Char) : Bool := c.toNat = 32 || (9 ≤ c.toNat && c.toNat ≤ 13)

/-- Value of the digits at the start of a string, added to those already read. -/
def leadingDigits (acc : Nat) : List Char → Nat
  | [] => acc
  | c :: cs => if c.isDigit then leadingDigits (10 * acc + (c.toNat - '0'.toNat)) cs else acc

/-- `atol` of the C library: blanks, a sign, digits; what follows is ignored. Out of range the C standard says nothing; as
in the GNU library the result is the nearest bound. -/
def atol (s : List Char) : Int :=
  match s.dropWhile isSpaceC with
  | '-' :: r => max (-9223372036854775808) (-(leadingDigits 0 r : Int))
  | '+' :: r => min 9223372036854775807 (leadingDigits 0 r : Int)
  | r => min 9223372036854775807 (leadingDigits 0 r : Int)

/-- Conversion to `size_t`. -/
def toSize (x : Int) : Nat := (x % (W64 : Int)).toNat

/-- Conversion of a `size_t` to `int` (gcc: modulo 2^32). -/
def toInt32 (x : Nat) : Int := if x % 4294967296 < 2147483648 then x % 4294967296 else (x % 4294967296 : Int) - 4294967296

/-- `sctk_alloc_get_bool_from_env`, sctk_alloc_config.c 105-128. -/
def boolFromEnv (E : Environ) (name : String) (dflt : Bool) : Outcome Bool :=
  match E name with
  | none => .ok dflt
  | some v => if v = [] then .ok dflt else if v = ['t', 'r', 'u', 'e'] then .ok true
      else if v = ['f', 'a', 'l', 's', 'e'] then .ok false else .abort

/-- `sctk_alloc_get_size_from_env`, sctk_alloc_config.c 131-148: the product is computed as `size_t`. -/
def sizeFromEnv (E : Environ) (name : String) (dflt factor : Nat) : Nat :=
  match E name with
  | none => dflt
  | some v => if v = [] then dflt else toSize (atol v * factor)

/-- `struct sctk_runtime_config_struct_allocator`, sctk_alloc_config.h 36-61, without `numa` and `scope`, which are not
read from the environment. -/
structure EnvConfig where
  printConfig : Bool
  strict : Bool
  roundRobin : Bool
  migration : Bool
  keepMax : Nat
  keepMem : Nat
  threshold : Nat
  factor : Int
  mmSources : Int

/-- `sctk_alloc_config_init_static_defaults`, sctk_alloc_config.c 75-102 (not MIC). -/
def staticDefaults : EnvConfig := ⟨false, false, false, false, 8 * 1024 * 1024, 512 * 1024 * 1024, 50 * 1024 * 1024, 2, 4⟩

/-- `sctk_alloc_config_init`, sctk_alloc_config.c 156-169, after `sctk_alloc_config_egg_init` 181-184. The output of the
configuration is left out. -/
def configInit (E : Environ) : Outcome EnvConfig := do
  let d := staticDefaults
  let pc ← boolFromEnv E "MPCALLOC_PRINT_CONFIG" d.printConfig
  let st ← boolFromEnv E "MPCALLOC_NUMA_STRICT" d.strict
  let rr ← boolFromEnv E "MPCALLOC_NUMA_ROUND_ROBIN" d.roundRobin
  let mi ← boolFromEnv E "MPCALLOC_NUMA_MIGRATION" d.migration
  let kx := sizeFromEnv E "MPCALLOC_KEEP_MAX" d.keepMax (1024 * 1024)
  let km := sizeFromEnv E "MPCALLOC_KEEP_MEM" d.keepMem (1024 * 1024)
  let th := sizeFromEnv E "MPCALLOC_REALLOC_THREASHOLD" d.threshold (1024 * 1024)
  let fa := toInt32 (sizeFromEnv E "MPCALLOC_REALLOC_FACTOR" (toSize d.factor) 1)
  let ms := toInt32 (sizeFromEnv E "MPCALLOC_MM_SOURCES" (toSize d.mmSources) 1)
  return ⟨pc, st, rr, mi, kx, km, th, fa, ms⟩

/-- The fields used by the chains and the light source. `old_size / realloc_factor` (sctk_allocator.c 1722) converts the
factor to `size_t`. -/
def EnvConfig.config (c : EnvConfig) : Config := ⟨toSize c.factor, c.threshold, c.keepMax, c.keepMem, c.strict⟩

end MpcAlloc

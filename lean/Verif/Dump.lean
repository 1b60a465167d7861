import Verif.HistoryLemmas
import Verif.Merge

/-!
Model of `sctk_alloc_debug_dump_segment` (sctk_alloc_debug.c 166-184), which prints the chunks of a segment. The lines of
chunks that are printed are given as a list; the title (170) and the empty line (183) are left out.
-/

namespace MpcAlloc

/-- One line of the output: the address, the size, and whether the chunk is free. The alignment (179) is computed from the
address; the arrays of names (sctk_alloc_debug.c 44-45) have two elements each, so that the type 2 (padded) reads behind
their end. -/
def dumpLine (m : Mem) (v : Nat) : Outcome (Nat × Nat × Bool) :=
  getPtr m v >>= fun p => if 2 ≤ infoType m v then .ub else .ok (p, getSize m v, decide (infoState m v = SFREE))

/-- Loop of `sctk_alloc_debug_dump_segment`, sctk_alloc_debug.c 176-181. -/
def dumpLoop (m : Mem) (v stop : Nat) : Outcome (List (Nat × Nat × Bool)) :=
  if add64 (vLarge v) (getSize m v) < stop then
    dumpLine m (getNextChunk m v) >>= fun x =>
    dumpLoop m (getNextChunk m v) stop >>= fun l => .ok (x :: l)
  else .ok []
partial_fixpoint

/-- `sctk_alloc_debug_dump_segment`, sctk_alloc_debug.c 166-184. `sctk_alloc_get_chunk` gives NULL for an address that is
not behind a header; the loop then reads at NULL. -/
def dumpSegment (m : Mem) (base stop : Nat) : Outcome (List (Nat × Nat × Bool)) :=
  getChunk m (add64 base 16) >>= fun v => if v = 0 then .ub else dumpLoop m v stop

end MpcAlloc

import Verif.ConcSource
import Verif.SourceStep
import Verif.PosixInv

/-
Effects of the steps of ConcSource.lean. The lock word and the counter of blocs play no part in what is done
under the lock (`adj`), so that the effects follow from those of whole calls (SourceChain, SourceFree).
-/

namespace MpcAlloc
namespace OnNode
variable {σ : Type}

/-- The state with another lock word and another counter. -/
def adj (l : Bool) (x : Int) (s : CS σ) : CS σ := { s with c := { s.c with lock := l, cnt := s.c.cnt + x } }

/-- `adj` on the state of a result. -/
def adj2 {β : Type} (l : Bool) (x : Int) (p : CS σ × β) : Outcome (CS σ × β) := .ok (adj l x p.1, p.2)

theorem adj2_eq {β : Type} (l : Bool) (x : Int) (s : CS σ) (b : β) : adj2 l x (s, b) = .ok (adj l x s, b) := rfl

theorem ok_bind' {α β : Type} (a : α) (f : α → Outcome β) : (Outcome.ok a).bind f = f a := rfl

theorem adj_setMem (l : Bool) (x : Int) (s : CS σ) (m : Mem) : (adj l x s).setMem m = adj l x (s.setMem m) := rfl

/-- The memory and the chunk that `prepareBloc` makes. -/
def prepMem (m : Mem) (b : Nat) : Mem :=
  createStopper (setupChunk m (add64 b 32) (sub64 (sub64 (hSize m b) 32) 16) 0).1 (sub64 (add64 b (hSize m b)) 16) (add64 b 32)

def prepV (m : Mem) (b : Nat) : Nat := (setupChunk m (add64 b 32) (sub64 (sub64 (hSize m b) 32) 16) 0).2

theorem prepareBloc_eq (s : CS σ) (b : Nat) : prepareBloc s b = if b = 0 then .ok (s, 0) else
    if s.c.noRegion then .ok (s.setMem (prepMem s.w.mem b), prepV s.w.mem b) else
    (regionSetEntry (prepMem s.w.mem b) s.w.regs s.c.addr b).bind fun p =>
      .ok ({ s with w := { s.w with mem := p.1, regs := p.2 } }, prepV s.w.mem b) := rfl

theorem prepareBloc_adj (l : Bool) (x : Int) (s : CS σ) (b : Nat) :
    prepareBloc (adj l x s) b = (prepareBloc s b).bind (adj2 l x) := by
  rw [prepareBloc_eq, prepareBloc_eq]
  have e1 : (adj l x s).w = s.w := rfl
  have e2 : (adj l x s).c.addr = s.c.addr := rfl
  have e3 : (adj l x s).c.noRegion = s.c.noRegion := rfl
  rw [e1, e2, e3]
  by_cases h : b = 0
  · rw [if_pos h, if_pos h, ok_bind', adj2_eq]
  rw [if_neg h, if_neg h]
  by_cases h : s.c.noRegion = true
  · rw [if_pos h, if_pos h, ok_bind', adj2_eq, adj_setMem]
  rw [if_neg h, if_neg h]
  cases regionSetEntry (prepMem s.w.mem b) s.w.regs s.c.addr b with
  | ok p => rw [ok_bind', ok_bind', ok_bind', adj2_eq]; rfl
  | _ => rfl

theorem takeBloc_adj (S : Source σ) (l : Bool) (x : Int) (s : CS σ) (n : Nat) :
    takeBloc S (adj l x s) n = (takeBloc S s n).bind (adj2 l x) := by
  unfold takeBloc
  have h1 : (adj l x s).c.hasSrc = s.c.hasSrc := rfl
  rw [h1]
  by_cases h : (!s.c.hasSrc) = true
  · rw [if_pos h, if_pos h]; rfl
  · rw [if_neg h, if_neg h]
    show (S.request s.w.mem s.w.src (requestSize n) >>= _) = _
    cases S.request s.w.mem s.w.src (requestSize n) with
    | ok p =>
      rw [Outcome.ok_bind, Outcome.ok_bind]
      exact prepareBloc_adj l x { s with w := { s.w with mem := p.1, src := p.2.1 } } p.2.2
    | _ => rfl

theorem requestMem_take (S : Source σ) (s : CS σ) (n : Nat) :
    requestMem S s n = (takeBloc S s n).bind (fun p => .ok (if p.2 = 0 then p.1 else adj p.1.c.lock 1 p.1, p.2)) := by
  unfold requestMem takeBloc
  split
  · rfl
  · cases S.request s.w.mem s.w.src (requestSize n) with
    | ok p =>
      rw [Outcome.ok_bind, Outcome.ok_bind]
      simp only
      cases prepareBloc { s with w := { s.w with mem := p.1, src := p.2.1 } } p.2.2 with
      | ok q =>
        rw [Outcome.ok_bind]
        simp only [Outcome.bind]
        split
        · rename_i h; rw [h]; rfl
        · rfl
      | _ => rfl
    | _ => rfl

theorem adj_adj (l l' : Bool) (x y : Int) (s : CS σ) : adj l x (adj l' y s) = adj l (y + x) s := by
  unfold adj
  simp only
  congr 2
  omega

theorem requestMem_adj (S : Source σ) (l : Bool) (x : Int) (s : CS σ) (n : Nat) :
    requestMem S (adj l x s) n = (requestMem S s n).bind (adj2 l x) := by
  rw [requestMem_take, requestMem_take, takeBloc_adj]
  cases takeBloc S s n with
  | ok q =>
    rw [ok_bind', ok_bind', ok_bind', adj2_eq]
    obtain ⟨q, v⟩ := q
    rw [adj2_eq, ok_bind']
    simp only
    by_cases h : v = 0
    · rw [if_pos h, if_pos h]
    · rw [if_neg h, if_neg h, adj_adj, adj_adj, Int.add_comm]; rfl
  | _ => rfl

theorem refillMem_adj (S : Source σ) (l : Bool) (x : Int) (s : CS σ) (n : Nat) :
    refillMem S (adj l x s) n = (refillMem S s n).bind (adj2 l x) := by
  unfold refillMem
  rw [requestMem_adj]
  cases requestMem S s n with
  | ok q =>
    rw [Outcome.ok_bind]
    show (Outcome.ok (adj l x q.1, q.2) >>= _) = _
    rw [Outcome.ok_bind]
    simp only
    split
    · rfl
    · show (freeListInsert q.1.c.pool q.1.heap (vLarge q.2) true >>= _) = _
      cases freeListInsert q.1.c.pool q.1.heap (vLarge q.2) true <;> rfl
  | _ => rfl

theorem adj_setHeap (l : Bool) (x : Int) (s : CS σ) (h : Heap) : (adj l x s).setHeap h = adj l x (s.setHeap h) := rfl

/-- The last part of `allocLocked`, with the chunk that was found. -/
def allocTail (s : CS σ) (chunk size : Nat) : Outcome (CS σ × Nat) :=
  if chunk = 0 then .ok (s, 0) else
  if hSize s.w.mem chunk < 32 then .abort else
  (splitFreeBloc s.w.mem (largeToV chunk) size).bind fun q =>
  if getSize q.1 q.2.1 < calcChunkSize size then .abort else
  if q.2.2 ≠ 0 then (freeListInsert s.c.pool ⟨q.1, s.c.status⟩ (vLarge q.2.2) false).bind fun h =>
    .ok ((s.setMem q.1).setHeap h, q.2.1)
  else .ok (s.setMem q.1, q.2.1)

theorem allocLocked_eq (S : Source σ) (s : CS σ) (n : Nat) : allocLocked S s n =
    (findFreeChunk s.c.pool s.heap n).bind fun p =>
    if p.2 = 0 then
      (refillMem S (s.setHeap p.1) (calcChunkSize n)).bind fun r =>
        if r.2 then (findFreeChunk r.1.c.pool r.1.heap n).bind fun z => allocTail (r.1.setHeap z.1) z.2 n
        else allocTail r.1 0 n
    else allocTail (s.setHeap p.1) p.2 n := by
  unfold allocLocked
  cases findFreeChunk s.c.pool s.heap n with
  | ok p =>
    rw [Outcome.ok_bind, ok_bind']
    simp only
    by_cases h : p.2 = 0
    · rw [if_pos h, if_pos h]
      cases refillMem S (s.setHeap p.1) (calcChunkSize n) with
      | ok r =>
        rw [Outcome.ok_bind, ok_bind']
        obtain ⟨r, b⟩ := r
        cases b with
        | true =>
          simp only [if_true]
          cases findFreeChunk r.c.pool r.heap n <;> rfl
        | false => rfl
      | _ => rfl
    · rw [if_neg h, if_neg h]; rfl
  | _ => rfl

theorem allocTail_adj (l : Bool) (x : Int) (s : CS σ) (c n : Nat) :
    allocTail (adj l x s) c n = (allocTail s c n).bind (adj2 l x) := by
  unfold allocTail
  have e1 : (adj l x s).w = s.w := rfl
  have e2 : (adj l x s).c.pool = s.c.pool := rfl
  have e3 : (adj l x s).c.status = s.c.status := rfl
  rw [e1, e2, e3]
  by_cases h : c = 0
  · rw [if_pos h, if_pos h, ok_bind', adj2_eq]
  rw [if_neg h, if_neg h]
  by_cases h : hSize s.w.mem c < 32
  · rw [if_pos h, if_pos h]; rfl
  rw [if_neg h, if_neg h]
  cases splitFreeBloc s.w.mem (largeToV c) n with
  | ok q =>
    rw [ok_bind', ok_bind']
    by_cases h : getSize q.1 q.2.1 < calcChunkSize n
    · rw [if_pos h, if_pos h]; rfl
    rw [if_neg h, if_neg h]
    by_cases h : q.2.2 ≠ 0
    · rw [if_pos h, if_pos h]
      cases freeListInsert s.c.pool ⟨q.1, s.c.status⟩ (vLarge q.2.2) false with
      | ok h => rw [ok_bind', ok_bind', ok_bind', adj2_eq, adj_setMem, adj_setHeap]
      | _ => rfl
    · rw [if_neg h, if_neg h, ok_bind', adj2_eq, adj_setMem]
  | _ => rfl

theorem allocLocked_adj (S : Source σ) (l : Bool) (x : Int) (s : CS σ) (n : Nat) :
    allocLocked S (adj l x s) n = (allocLocked S s n).bind (adj2 l x) := by
  rw [allocLocked_eq, allocLocked_eq]
  have e1 : (adj l x s).c.pool = s.c.pool := rfl
  have e2 : (adj l x s).heap = s.heap := rfl
  rw [e1, e2]
  cases findFreeChunk s.c.pool s.heap n with
  | ok p =>
    rw [ok_bind', ok_bind']
    by_cases h : p.2 = 0
    · rw [if_pos h, if_pos h, adj_setHeap, refillMem_adj]
      cases refillMem S (s.setHeap p.1) (calcChunkSize n) with
      | ok r =>
        obtain ⟨r, b⟩ := r
        rw [ok_bind', ok_bind', adj2_eq, ok_bind']
        cases b with
        | true =>
          simp only [if_true]
          have e1 : (adj l x r).c.pool = r.c.pool := rfl
          have e2 : (adj l x r).heap = r.heap := rfl
          rw [e1, e2]
          cases findFreeChunk r.c.pool r.heap n with
          | ok z => rw [ok_bind', ok_bind', adj_setHeap, allocTail_adj]
          | _ => rfl
        | false =>
          simp only [Bool.false_eq_true, if_false]
          rw [allocTail_adj]
      | _ => rfl
    · rw [if_neg h, if_neg h, adj_setHeap, allocTail_adj]
  | _ => rfl

theorem giveBloc_adj (S : Source σ) (l : Bool) (x : Int) (s : CS σ) (v : Nat) :
    giveBloc S (adj l x s) v = (giveBloc S s v).bind fun s' => .ok (adj l x s') := by
  unfold giveBloc
  have e1 : (adj l x s).w = s.w := rfl
  have e2 : (adj l x s).c.noRegion = s.c.noRegion := rfl
  rw [e1, e2]
  cases getPtr s.w.mem v with
  | ok a =>
    rw [Outcome.ok_bind, Outcome.ok_bind]
    simp only
    generalize (if s.c.noRegion = true then pure s.w.regs else regionUnsetEntry s.w.mem s.w.regs (sub64 a 32)) = z
    cases z with
    | ok R =>
      rw [Outcome.ok_bind, Outcome.ok_bind]
      cases S.free s.w.mem s.w.src (sub64 a 32) <;> rfl
    | _ => rfl
  | _ => rfl

/-- Without destroy handler. -/
theorem freeMacroBloc_give (S : Source σ) (s : CS σ) (v : Nat) (hh : s.c.handler = false) :
    freeMacroBloc S s v = if getSize s.w.mem v % MB2 ≠ MB2 - 48 then .ok s
      else (giveBloc S s v).bind fun s' => .ok (adj s'.c.lock (-1) s') := by
  unfold freeMacroBloc giveBloc
  by_cases h : getSize s.w.mem v % MB2 ≠ MB2 - 48
  · rw [if_pos h, if_pos h]; rfl
  rw [if_neg h, if_neg h]
  cases getPtr s.w.mem v with
  | ok a =>
    rw [Outcome.ok_bind, Outcome.ok_bind]
    simp only
    generalize (if s.c.noRegion = true then pure s.w.regs else regionUnsetEntry s.w.mem s.w.regs (sub64 a 32)) = z
    cases z with
    | ok R =>
      rw [Outcome.ok_bind, Outcome.ok_bind]
      cases S.free s.w.mem s.w.src (sub64 a 32) with
      | ok q =>
        rw [Outcome.ok_bind, Outcome.ok_bind]
        rw [if_neg (fun h => by rw [hh] at h; exact absurd h.2.1 Bool.false_ne_true)]
        rfl
      | _ => rfl
    | _ => rfl
  | _ => rfl

theorem freeMacroBloc_adj (S : Source σ) (l : Bool) (x : Int) (s : CS σ) (v : Nat) (hh : s.c.handler = false) :
    freeMacroBloc S (adj l x s) v = (freeMacroBloc S s v).bind fun s' => .ok (adj l x s') := by
  rw [freeMacroBloc_give S s v hh, freeMacroBloc_give S (adj l x s) v hh, giveBloc_adj]
  have e1 : (adj l x s).w = s.w := rfl
  rw [e1]
  by_cases h : getSize s.w.mem v % MB2 ≠ MB2 - 48
  · rw [if_pos h, if_pos h, ok_bind']
  rw [if_neg h, if_neg h]
  cases giveBloc S s v with
  | ok q => rw [ok_bind', ok_bind', ok_bind', ok_bind', adj_adj, adj_adj, Int.add_comm]; rfl
  | _ => rfl

theorem freeLocked_adj (S : Source σ) (l : Bool) (x : Int) (s : CS σ) (v : Nat) (hh : s.c.handler = false) :
    freeLocked S (adj l x s) v = (freeLocked S s v).bind fun s' => .ok (adj l x s') := by
  unfold freeLocked
  have e1 : (adj l x s).w = s.w := rfl
  have e2 : (adj l x s).c.base = s.c.base := rfl
  have e3 : (adj l x s).c.noMerge = s.c.noMerge := rfl
  have e4 : (adj l x s).c.pool = s.c.pool := rfl
  have e5 : (adj l x s).heap = s.heap := rfl
  rw [e1, e2, e3, e4, e5]
  generalize (if s.c.base ≠ 0 then getChunk s.w.mem (add64 s.c.base 16) else pure 0) = y
  cases y with
  | ok _ =>
    rw [Outcome.ok_bind, Outcome.ok_bind]
    generalize (if s.c.noMerge = true then pure (s.heap, v) else mergeChunk s.c.pool s.heap v) = z
    cases z with
    | ok q =>
      rw [Outcome.ok_bind, Outcome.ok_bind]
      simp only
      rw [adj_setHeap]
      have e6 : (adj l x (s.setHeap q.1)).c.hasSrc = (s.setHeap q.1).c.hasSrc := rfl
      have e7 : (adj l x (s.setHeap q.1)).w = (s.setHeap q.1).w := rfl
      have e8 : (adj l x (s.setHeap q.1)).heap = (s.setHeap q.1).heap := rfl
      have e9 : (adj l x (s.setHeap q.1)).c.pool = (s.setHeap q.1).c.pool := rfl
      rw [e6, e7, e8, e9]
      by_cases h : (s.setHeap q.1).c.hasSrc = true ∧ getSize (s.setHeap q.1).w.mem q.2 % MB2 = MB2 - 48
      · rw [if_pos h, if_pos h, freeMacroBloc_adj _ _ _ (s.setHeap q.1) _ hh]
      rw [if_neg h, if_neg h]
      cases freeListInsert (s.setHeap q.1).c.pool (s.setHeap q.1).heap (vLarge q.2) true <;> rfl
    | _ => rfl
  | _ => rfl

theorem adj_self {σ : Type} {s : CS σ} (h : s.c.lock = false) : adj false 0 s = s := by
  obtain ⟨w, c⟩ := s
  obtain ⟨⟩ := c
  simp only at h
  subst h
  simp [adj]

theorem adj_lk (s : CS Light) (l : Bool) : s.lk l = adj l 0 s := by
  unfold CS.lk adj
  simp

theorem adj_inj {l l' : Bool} {x : Int} {s : CS Light} : adj l 0 (adj l' x s) = adj l x s := by
  rw [adj_adj, Int.add_zero]

theorem alignedSize_zero (n : Nat) : alignedSize 0 n = n := by unfold alignedSize; rw [if_neg (by omega)]

/-- The flags of the chain stay. -/
def Flags {σ : Type} (s s' : CS σ) : Prop := s'.c.dead = s.c.dead ∧ s'.c.threadSafe = s.c.threadSafe

/-- Shape of the result of `prepareBloc`. -/
def prepRes {σ : Type} (s : CS σ) (b : Nat) (m : Mem) (z : Nat) : Outcome (CS σ × Nat) := if b = 0 then .ok (s, 0) else
    if s.c.noRegion then .ok (s.setMem m, z) else
    (regionSetEntry m s.w.regs s.c.addr b).bind fun p =>
      .ok ({ s with w := { s.w with mem := p.1, regs := p.2 } }, z)

theorem prepRes_flags {σ : Type} {s s' : CS σ} {b v z : Nat} {m : Mem} (h : prepRes s b m z = .ok (s', v)) : Flags s s' := by
  unfold prepRes at h
  split at h
  · rw [← (Prod.mk.inj (Outcome.ok.inj h)).1]; exact ⟨rfl, rfl⟩
  split at h
  · rw [← (Prod.mk.inj (Outcome.ok.inj h)).1]; exact ⟨rfl, rfl⟩
  cases hr : regionSetEntry m s.w.regs s.c.addr b with
  | ok p => rw [hr, ok_bind'] at h; rw [← (Prod.mk.inj (Outcome.ok.inj h)).1]; exact ⟨rfl, rfl⟩
  | _ => rw [hr] at h; cases h

theorem prepareBloc_res {σ : Type} (s : CS σ) (b : Nat) :
    prepareBloc s b = prepRes s b (prepMem s.w.mem b) (prepV s.w.mem b) := by
  rw [prepareBloc_eq, prepRes]

theorem prepareBloc_flags {σ : Type} {s s' : CS σ} {b v : Nat} (h : prepareBloc s b = .ok (s', v)) : Flags s s' :=
  prepRes_flags ((prepareBloc_res s b).symm.trans h)

theorem takeBloc_flags {σ : Type} {S : Source σ} {s s' : CS σ} {n v : Nat} (h : takeBloc S s n = .ok (s', v)) :
    Flags s s' := by
  unfold takeBloc at h
  split at h
  · cases h; exact ⟨rfl, rfl⟩
  cases hr : S.request s.w.mem s.w.src (requestSize n) with
  | ok p =>
    rw [hr, Outcome.ok_bind] at h
    exact prepareBloc_flags (s := { s with w := { s.w with mem := p.1, src := p.2.1 } }) h
  | _ => rw [hr] at h; cases h

theorem requestMem_flags {σ : Type} {S : Source σ} {s s' : CS σ} {n v : Nat} (h : requestMem S s n = .ok (s', v)) :
    Flags s s' := by
  rw [requestMem_take] at h
  cases hr : takeBloc S s n with
  | ok p =>
    have := takeBloc_flags (s' := p.1) (v := p.2) hr
    rw [hr, ok_bind'] at h
    cases h
    split
    · exact this
    · exact this
  | _ => rw [hr] at h; cases h

theorem refillMem_flags {σ : Type} {S : Source σ} {s s' : CS σ} {n : Nat} {b : Bool}
    (h : refillMem S s n = .ok (s', b)) : Flags s s' := by
  unfold refillMem at h
  cases hr : requestMem S s n with
  | ok p =>
    have h1 := requestMem_flags (s' := p.1) (v := p.2) hr
    rw [hr, Outcome.ok_bind] at h
    simp only at h
    split at h
    · cases h; exact h1
    · cases hf : freeListInsert p.1.c.pool p.1.heap (vLarge p.2) true with
      | ok q => rw [hf] at h; cases h; exact h1
      | _ => rw [hf] at h; cases h
  | _ => rw [hr] at h; cases h

theorem splitFreeBloc_lt {m : Mem} {v n : Nat} {q : Mem × Nat × Nat} (h : splitFreeBloc m v n = .ok q) (hv : v < W64) :
    q.2.1 < W64 := by
  unfold splitFreeBloc at h
  simp only at h
  split at h
  · cases hp : getPtr m v with
    | ok a =>
      rw [hp, Outcome.ok_bind] at h
      rw [Outcome.ok_bind] at h
      generalize hm1 : setupChunk m (add64 a (alignSize16 (calcChunkSize n))) (sub64 (getSize m v) (alignSize16 (calcChunkSize n))) a = z at h
      cases hp2 : getPtr z.1 v with
      | ok a2 =>
        rw [hp2, Outcome.ok_bind] at h
        rw [Outcome.ok_bind] at h
        rw [← Outcome.ok.inj h]
        exact Nat.mod_lt _ (by omega)
      | _ => rw [hp2] at h; cases h
    | _ => rw [hp] at h; cases h
  · rw [← Outcome.ok.inj h]; exact hv

theorem allocTail_flags {σ : Type} {s s' : CS σ} {c n v : Nat} (h : allocTail s c n = .ok (s', v)) :
    Flags s s' ∧ v < W64 := by
  unfold allocTail at h
  split at h
  · rw [← (Prod.mk.inj (Outcome.ok.inj h)).1, ← (Prod.mk.inj (Outcome.ok.inj h)).2]; exact ⟨⟨rfl, rfl⟩, by omega⟩
  split at h
  · cases h
  cases hr : splitFreeBloc s.w.mem (largeToV c) n with
  | ok q =>
    have hq := splitFreeBloc_lt hr (Nat.mod_lt _ (by omega))
    rw [hr, ok_bind'] at h
    split at h
    · cases h
    split at h
    · cases hf : freeListInsert s.c.pool ⟨q.1, s.c.status⟩ (vLarge q.2.2) false with
      | ok z =>
        rw [hf, ok_bind'] at h
        rw [← (Prod.mk.inj (Outcome.ok.inj h)).1, ← (Prod.mk.inj (Outcome.ok.inj h)).2]; exact ⟨⟨rfl, rfl⟩, hq⟩
      | _ => rw [hf] at h; cases h
    · rw [← (Prod.mk.inj (Outcome.ok.inj h)).1, ← (Prod.mk.inj (Outcome.ok.inj h)).2]; exact ⟨⟨rfl, rfl⟩, hq⟩
  | _ => rw [hr] at h; cases h

theorem allocLocked_flags {σ : Type} {S : Source σ} {s s' : CS σ} {n v : Nat}
    (h : allocLocked S s n = .ok (s', v)) : Flags s s' ∧ v < W64 := by
  rw [allocLocked_eq] at h
  generalize hr : findFreeChunk s.c.pool s.heap n = z at h
  cases z with
  | ok p =>
    rw [ok_bind'] at h
    by_cases hp : p.2 = 0
    · rw [if_pos hp] at h
      generalize hf : refillMem S (s.setHeap p.1) (calcChunkSize n) = r at h
      cases r with
      | ok r =>
        obtain ⟨r, b⟩ := r
        have h1 := refillMem_flags hf
        rw [ok_bind'] at h
        cases b with
        | true =>
          simp only [if_true] at h
          generalize hg : findFreeChunk r.c.pool r.heap n = z at h
          cases z with
          | ok z =>
            rw [ok_bind'] at h
            have h2 := allocTail_flags h
            exact ⟨⟨h2.1.1.trans h1.1, h2.1.2.trans h1.2⟩, h2.2⟩
          | _ => cases h
        | false =>
          simp only [Bool.false_eq_true, if_false] at h
          have h2 := allocTail_flags h
          exact ⟨⟨h2.1.1.trans h1.1, h2.1.2.trans h1.2⟩, h2.2⟩
      | _ => cases h
    · rw [if_neg hp] at h
      have h2 := allocTail_flags h
      have h3 : (s.setHeap p.1).c.dead = s.c.dead := rfl
      have h4 : (s.setHeap p.1).c.threadSafe = s.c.threadSafe := rfl
      exact ⟨⟨h2.1.1.trans h3, h2.1.2.trans h4⟩, h2.2⟩
  | _ => cases h

/-- The locked part of an allocation. -/
theorem locked_alloc {C : Config} {pb : Nat} {u : CS Light} {A : AHeap} {O L : List (Nat × Nat)} {P : Res} {n : Nat}
    (I : SInv pb u A O L P) (hts : u.c.threadSafe = true) (hn : n ≠ 0) (hlt : n + 48 + MB2 ≤ W64)
    (hsmall : calcChunkSize n ≤ 1048576) (l : Bool) (x : Int) :
    ((∃ k, k ≤ n + 32 ∧ Refused C u L k) ∧ allocLocked (lightSource C) (adj l x u) n = .ub) ∨
    ∃ u' d A' L', allocLocked (lightSource C) (adj l x u) n = .ok (adj l x u', d.addr + 15) ∧ d.st = .used none ∧
      SAlloc pb u A O L P 0 n d u' A' L' := by
  have key := salloc_ok (C := C) (b := 0) I (Or.inl (by omega)) hn (by rw [alignedSize_zero]; exact hlt)
    (by rw [alignedSize_zero]; exact Or.inl hsmall)
  rw [alignedSize_zero] at key
  have hhuge : isHuge u.c n = false := by unfold isHuge; simp; intro _; omega
  have e0 : allocLocked (lightSource C) u n = (allocLocked (lightSource C) u n).bind (adj2 false 0) := by
    conv => lhs; rw [← adj_self I.ch.lock]
    exact allocLocked_adj _ false 0 u n
  have eA : allocAlign (lightSource C) u 0 n = (allocLocked (lightSource C) (adj true 0 u) n >>= fun p => do
      let s ← unlockIf p.1
      if p.2 = 0 then return (s, 0) else return padAndReturn s p.2 0) := by
    unfold allocAlign
    rw [if_neg (by simp [I.ch.dead]), if_neg hn]
    simp only
    rw [if_neg (show ¬ (0 > 1) by omega), hhuge, if_neg (by simp), lockIf_ok I.ch.dead I.ch.lock, hts, Outcome.ok_bind]
    have : ({ u with c := { u.c with lock := true } } : CS Light) = adj true 0 u := adj_lk u true
    rw [this]
  rw [eA, allocLocked_adj] at key
  rw [allocLocked_adj]
  generalize hz : allocLocked (lightSource C) u n = z at key e0 ⊢
  cases z with
  | ub =>
    rcases key with ⟨h, _⟩ | ⟨_, _, _, _, h, _⟩
    · exact Or.inl ⟨h, rfl⟩
    · exact absurd h (by simp [Outcome.bind, bind])
  | abort =>
    rcases key with ⟨_, h⟩ | ⟨_, _, _, _, h, _⟩ <;> exact absurd h (by simp [Outcome.bind, bind])
  | diverge =>
    rcases key with ⟨_, h⟩ | ⟨_, _, _, _, h, _⟩ <;> exact absurd h (by simp [Outcome.bind, bind])
  | ok p =>
    obtain ⟨u1, v⟩ := p
    have e1 : u1 = adj false 0 u1 := by
      have : (Outcome.ok (u1, v)) = Outcome.ok (adj false 0 u1, v) := e0
      injection this with h
      exact congrArg Prod.fst h
    right
    rw [ok_bind', adj2_eq] at key
    obtain ⟨hfl, hvlt⟩ := allocLocked_flags hz
    have hd1 : u1.c.dead = false := hfl.1.trans I.ch.dead
    have ht1 : u1.c.threadSafe = true := hfl.2.trans hts
    have eU : unlockIf (adj true 0 u1) = .ok u1 := by
      unfold unlockIf
      have h1 : (adj true 0 u1).c.dead = false := hd1
      have h2 : (adj true 0 u1).c.threadSafe = true := ht1
      rw [h1, h2, if_neg (by simp), if_pos rfl]
      conv => rhs; rw [e1]
      rfl
    rw [Outcome.ok_bind] at key
    simp only at key
    rw [eU, Outcome.ok_bind] at key
    by_cases hv : v = 0
    · rw [if_pos hv] at key
      rcases key with ⟨_, h⟩ | ⟨_, d, _, _, h, R⟩
      · cases h
      · injection h with h
        exact absurd (congrArg Prod.snd h).symm R.nz
    rw [if_neg hv] at key
    have ep : padAndReturn u1 v 0 = (u1, add64 v 1) := by
      unfold padAndReturn chunkBody
      rw [if_neg (by omega)]
      simp only
      rw [if_neg hv, if_neg hv]
      rfl
    rw [ep] at key
    rcases key with ⟨_, h⟩ | ⟨u', d, A', L', h, R⟩
    · cases h
    injection h with h
    have h1 : u1 = u' := congrArg Prod.fst h
    have h2 : add64 v 1 = d.uptr := congrArg Prod.snd h
    subst h1
    have hst := R.noPad (by omega)
    refine ⟨u1, d, A', L', ?_, hst, R⟩
    have h3 : d.uptr = d.addr + 16 := by unfold Ck.uptr Ck.off; rw [hst]
    have h4 := R.inv.ch.wf.has_range ((R.used d).2 (Or.inr rfl)).1
    have h5 : v = d.addr + 15 := by
      rw [h3] at h2
      unfold add64 at h2
      omega
    rw [ok_bind', adj2_eq, h5]

/-- The bloc of a huge block. The counter is not yet updated. -/
theorem huge_alloc {C : Config} {pb : Nat} {u : CS Light} {A : AHeap} {O L : List (Nat × Nat)} {P : Res} {n : Nat}
    (I : SInv pb u A O L P) (hn : n ≠ 0) (hlt : n + 48 + MB2 ≤ W64)
    (hbig : 1048576 < calcChunkSize n) (hfit : n + 64 ≤ blocSize n) (l : Bool) (x : Int) :
    ((∃ k, k ≤ n + 32 ∧ Refused C u L k) ∧ takeBloc (lightSource C) (adj l x u) n = .ub) ∨
    ∃ u' d A' L', takeBloc (lightSource C) (adj l x u) n = .ok (adj l (x - 1) u', d.addr + 15) ∧ d.st = .used none ∧
      SAlloc pb u A O L P 0 n d u' A' L' := by
  have key := salloc_huge (C := C) (b := 0) (n := n) I (Or.inl (by omega)) hn
    (by rw [alignedSize_zero]; exact hbig) (by rw [alignedSize_zero]; exact hlt) (by rw [alignedSize_zero]; exact hfit)
  rw [alignedSize_zero] at key
  have hhuge : isHuge u.c n = true := by unfold isHuge; simp [I.ch.src, hbig]
  have eA : allocAlign (lightSource C) u 0 n = ((requestMem (lightSource C) u n) >>= fun p => .ok (padAndReturn p.1 p.2 0)) := by
    unfold allocAlign
    rw [if_neg (by simp [I.ch.dead]), if_neg hn]
    simp only
    rw [if_neg (show ¬ (0 > 1) by omega), hhuge, if_pos rfl]
    rfl
  have e0 : takeBloc (lightSource C) u n = (takeBloc (lightSource C) u n).bind (adj2 false 0) := by
    conv => lhs; rw [← adj_self I.ch.lock]
    exact takeBloc_adj _ false 0 u n
  rw [eA, requestMem_take] at key
  rw [takeBloc_adj]
  rcases requestMem_ok (C := C) I false hlt with ⟨_, hr⟩ | ⟨u2, b, L2, hr, B⟩
  all_goals
    rw [adj_lk, adj_self I.ch.lock, requestMem_take] at hr
    generalize hz : takeBloc (lightSource C) u n = z at key e0 hr ⊢
  · cases z with
    | ub =>
      rcases key with ⟨h, _⟩ | ⟨_, _, _, _, h, _⟩
      · exact Or.inl ⟨⟨n, by omega, h⟩, rfl⟩
      · exact absurd h (by simp [Outcome.bind, bind])
    | _ => cases hr
  · cases z with
    | ok p =>
      obtain ⟨u1, v⟩ := p
      rw [ok_bind'] at hr
      have h2 : v = b + 47 := (Prod.mk.inj (Outcome.ok.inj hr)).2
      have hv : v ≠ 0 := by omega
      have e1 : u1 = adj false 0 u1 := by
        have : (Outcome.ok (u1, v)) = Outcome.ok (adj false 0 u1, v) := e0
        injection this with h
        exact congrArg Prod.fst h
      right
      rw [ok_bind', Outcome.ok_bind] at key
      simp only at key
      rw [if_neg hv] at key
      have ep : padAndReturn (adj u1.c.lock 1 u1) v 0 = (adj u1.c.lock 1 u1, add64 v 1) := by
        unfold padAndReturn chunkBody
        rw [if_neg (by omega)]
        simp only
        rw [if_neg hv, if_neg hv]
        rfl
      rw [ep] at key
      rcases key with ⟨_, h⟩ | ⟨u', d, A', L', h, R⟩
      · cases h
      injection h with h
      have h1 : adj u1.c.lock 1 u1 = u' := congrArg Prod.fst h
      have h2' : add64 v 1 = d.uptr := congrArg Prod.snd h
      have hst := R.noPad (by omega)
      have h3 : d.uptr = d.addr + 16 := by unfold Ck.uptr Ck.off; rw [hst]
      have h4 := R.inv.ch.wf.has_range ((R.used d).2 (Or.inr rfl)).1
      have hF := B.fresh.lt
      have hF2 := B.fresh.ge
      have h5 : v = d.addr + 15 := by
        rw [h3] at h2'
        unfold add64 at h2'
        omega
      refine ⟨u', d, A', L', ?_, hst, R⟩
      rw [ok_bind', adj2_eq, h5, ← h1, adj_adj]
      congr 3
      omega
    | _ => cases hr

/-- The reads of the header of a used chunk before a free. -/
theorem free_reads {pb : Nat} {u : CS Light} {A : AHeap} {O L : List (Nat × Nat)} {P : Res} {c : Ck}
    (I : SInv pb u A O L P) (hc : A.Used c) :
    getChunkUnpadded u.w.mem c.uptr = .ok (c.addr + 15) ∧ infoState u.w.mem (c.addr + 15) = SALLOC ∧
      getSize u.w.mem (c.addr + 15) = c.size :=
  getChunkUnpadded_used I.ch.wf I.ch.mem hc

theorem chainFree_reads {C : Config} {pb : Nat} {u : CS Light} {A : AHeap} {O L : List (Nat × Nat)} {P : Res} {c : Ck}
    (I : SInv pb u A O L P) (hc : A.Used c) :
    chainFree (lightSource C) C u c.uptr = if isHuge u.c c.size then freeMacroBloc (lightSource C) u (c.addr + 15)
      else (lockIf u >>= fun s => freeLocked (lightSource C) s (c.addr + 15) >>= unlockIf) := by
  obtain ⟨g1, g2, g3⟩ := free_reads I hc
  have hr := I.ch.wf.has_range hc.1
  have hu := I.ch.wf.uptr_ge c
  unfold chainFree
  rw [if_neg (by simp [I.ch.dead]), if_neg (by omega), g1, Outcome.ok_bind, if_neg (by omega), if_neg (by simp [g2]), g3]

/-- The bloc of a huge block is given back. The counter is not yet updated. -/
theorem huge_free {C : Config} {pb : Nat} {u : CS Light} {A : AHeap} {O L : List (Nat × Nat)} {P : Res} {c : Ck}
    (I : SInv pb u A O L P) (hc : A.Used c) (hbig : 1048576 < calcChunkSize c.size) (hw : c.size % MB2 = MB2 - 48)
    (l : Bool) (x : Int) :
    ∃ u' A' L', giveBloc (lightSource C) (adj l x u) (c.addr + 15) = .ok (adj l (x + 1) u') ∧
      SFree pb u A O L P c u' A' L' := by
  obtain ⟨g1, g2, g3⟩ := free_reads I hc
  have hH : isHuge u.c c.size = true := by unfold isHuge; simp [I.ch.src, hbig]
  obtain ⟨u', A', L', e, R⟩ := sfree_ok (C := C) I hc
  rw [chainFree_reads I hc, hH, if_pos rfl, freeMacroBloc_give _ _ _ I.ch.handler.1, g3, if_neg (by omega)] at e
  rw [giveBloc_adj]
  cases hz : giveBloc (lightSource C) u (c.addr + 15) with
  | ok u1 =>
    rw [hz, ok_bind'] at e
    have e1 : adj u1.c.lock (-1) u1 = u' := Outcome.ok.inj e
    refine ⟨u', A', L', ?_, R⟩
    rw [ok_bind', ← e1, adj_adj]
    congr 2
    omega
  | _ => rw [hz] at e; cases e

theorem freeMacroBloc_flags {σ : Type} {S : Source σ} {s s' : CS σ} {v : Nat} (hh : s.c.handler = false)
    (h : freeMacroBloc S s v = .ok s') : Flags s s' := by
  rw [freeMacroBloc_give _ _ _ hh] at h
  split at h
  · rw [← Outcome.ok.inj h]; exact ⟨rfl, rfl⟩
  · unfold giveBloc at h
    cases hp : getPtr s.w.mem v with
    | ok a =>
      rw [hp, Outcome.ok_bind] at h
      simp only at h
      generalize (if s.c.noRegion = true then pure s.w.regs else regionUnsetEntry s.w.mem s.w.regs (sub64 a 32)) = z at h
      cases z with
      | ok R =>
        rw [Outcome.ok_bind] at h
        cases hf : S.free s.w.mem s.w.src (sub64 a 32) with
        | ok q => rw [hf] at h; rw [← Outcome.ok.inj h]; exact ⟨rfl, rfl⟩
        | _ => rw [hf] at h; cases h
      | _ => cases h
    | _ => rw [hp] at h; cases h

theorem freeLocked_flags {σ : Type} {S : Source σ} {s s' : CS σ} {v : Nat} (hh : s.c.handler = false)
    (h : freeLocked S s v = .ok s') : Flags s s' := by
  unfold freeLocked at h
  generalize (if s.c.base ≠ 0 then getChunk s.w.mem (add64 s.c.base 16) else pure 0) = y at h
  cases y with
  | ok _ =>
    rw [Outcome.ok_bind] at h
    generalize (if s.c.noMerge = true then pure (s.heap, v) else mergeChunk s.c.pool s.heap v) = z at h
    cases z with
    | ok q =>
      rw [Outcome.ok_bind] at h
      simp only at h
      by_cases hc : (s.setHeap q.1).c.hasSrc = true ∧ getSize (s.setHeap q.1).w.mem q.2 % MB2 = MB2 - 48
      · rw [if_pos hc] at h
        have h1 := freeMacroBloc_flags (s := s.setHeap q.1) hh h
        exact ⟨h1.1, h1.2⟩
      · rw [if_neg hc] at h
        cases hf : freeListInsert (s.setHeap q.1).c.pool (s.setHeap q.1).heap (vLarge q.2) true with
        | ok w => rw [hf] at h; rw [← Outcome.ok.inj h]; exact ⟨rfl, rfl⟩
        | _ => rw [hf] at h; cases h
    | _ => cases h
  | _ => cases h

/-- The locked part of a free. -/
theorem locked_free {C : Config} {pb : Nat} {u : CS Light} {A : AHeap} {O L : List (Nat × Nat)} {P : Res} {c : Ck}
    (I : SInv pb u A O L P) (hts : u.c.threadSafe = true) (hc : A.Used c) (hsmall : calcChunkSize c.size ≤ 1048576)
    (l : Bool) (x : Int) :
    ∃ u' A' L', freeLocked (lightSource C) (adj l x u) (c.addr + 15) = .ok (adj l x u') ∧
      SFree pb u A O L P c u' A' L' := by
  have hH : isHuge u.c c.size = false := by unfold isHuge; simp; intro _; omega
  obtain ⟨u', A', L', e, R⟩ := sfree_ok (C := C) I hc
  have hh := I.ch.handler.1
  rw [chainFree_reads I hc, hH, if_neg (by simp), lockIf_ok I.ch.dead I.ch.lock, hts, Outcome.ok_bind] at e
  have e0 : freeLocked (lightSource C) u (c.addr + 15) =
      (freeLocked (lightSource C) u (c.addr + 15)).bind (fun s => .ok (adj false 0 s)) := by
    conv => lhs; rw [← adj_self I.ch.lock]
    exact freeLocked_adj _ false 0 u _ hh
  have e2 : ({ u with c := { u.c with lock := true } } : CS Light) = adj true 0 u := adj_lk u true
  rw [e2, freeLocked_adj _ _ _ _ _ hh] at e
  rw [freeLocked_adj _ _ _ _ _ hh]
  generalize hz : freeLocked (lightSource C) u (c.addr + 15) = z at e e0 ⊢
  cases z with
  | ok u1 =>
    have e1 : u1 = adj false 0 u1 := Outcome.ok.inj e0
    have hfl := freeLocked_flags hh hz
    have hd1 : u1.c.dead = false := hfl.1.trans I.ch.dead
    have ht1 : u1.c.threadSafe = true := hfl.2.trans hts
    have eU : unlockIf (adj true 0 u1) = .ok u1 := by
      unfold unlockIf
      have h1 : (adj true 0 u1).c.dead = false := hd1
      have h2 : (adj true 0 u1).c.threadSafe = true := ht1
      rw [h1, h2, if_neg (by simp), if_pos rfl]
      conv => rhs; rw [e1]
      rfl
    rw [ok_bind', Outcome.ok_bind, eU] at e
    exact ⟨u', A', L', by rw [ok_bind', Outcome.ok.inj e], R⟩
  | _ => cases e

/-- What writing the padded header does. -/
structure SPad (pb : Nat) (u : CS Light) (A : AHeap) (O L : List (Nat × Nat)) (P : Res) (b n : Nat) (c d : Ck) (m : Mem)
    (A' : AHeap) : Prop where
  step : SStep pb u A O L P (fun k => k ≠ c) (u.setMem m) A' L
  used : ∀ x, A'.Used x ↔ (A.Used x ∧ x ≠ c) ∨ x = d
  nz : d.uptr ≠ 0
  fit : d.uptr + n ≤ d.addr + d.size
  align : 1 < b → b ∣ d.uptr
  align16 : b ≤ 1 → 16 ∣ d.uptr
  noPad : b ≤ 1 → d.st = .used none
  addr : d.addr = c.addr ∧ d.size = c.size
  shape : A'.shape = A.shape

theorem SPad.busy {pb : Nat} {u : CS Light} {A A' : AHeap} {O L : List (Nat × Nat)} {P : Res} {b n : Nat} {c d : Ck} {m : Mem}
    (R : SPad pb u A O L P b n c d m A') (h : A.Busy) : A'.Busy := by
  intro e he
  rw [R.shape] at he
  obtain ⟨k, h1, h2, h3⟩ := h e he
  by_cases hk : k = c
  · subst hk
    have := R.addr.1
    exact ⟨d, (R.used d).2 (Or.inr rfl), by omega, by omega⟩
  · exact ⟨k, (R.used k).2 (Or.inl ⟨h1, hk⟩), h2, h3⟩

/-- The padded header is written in the chunk of the caller. -/
theorem pad_ok {pb : Nat} {u : CS Light} {A : AHeap} {O L : List (Nat × Nat)} {P : Res} {c : Ck} {b n : Nat}
    (I : SInv pb u A O L P) (hc : A.Used c) (hst : c.st = .used none) (hb : GoodBound b) (hn : n ≠ 0)
    (hsz : n + (if 1 < b then b else 0) + 16 ≤ c.size) (l : Bool) (x : Int) :
    ∃ m d A', padAndReturn (adj l x u) (c.addr + 15) b = (adj l x (u.setMem m), d.uptr) ∧
      SPad pb u A O L P b n c d m A' := by
  have W := I.ch.wf
  obtain ⟨d, A', R, hne, hs⟩ := padReturn_ok (σ := Light) (n := n) W hc hst hb hsz
  obtain ⟨m, e, M, f⟩ := hs u I.ch.mem
  have hdw := R.wf.has_wf R.usedD.1
  have ha := R.addr
  have hz := R.size
  have hout : ∀ x, A.Outer pb x → m x = u.w.mem x := by
    intro x hx
    refine f x ?_
    by_contra hcx
    obtain ⟨g, hg, hcg⟩ := hc.1
    have hbd := (W.seg g hg).bounds hcg
    rcases hx.2 with h | ⟨g', hg', h3, h4⟩
    · exact h (AHeap.segAt_ext W hg (Seg.mem_ext hcg) (by omega) (by omega))
    · by_cases he : g' = g
      · subst he; omega
      · have hge := (W.seg g' hg').ge
        have := W.seg_disj hg hg' (fun e => he e.symm)
        omega
  have I' : SInv pb (u.setMem m) A' O L P := by
    refine I.update (h := ⟨m, u.c.status⟩) R.wf M R.shape (fun h => R.noAdj (I.ch.noAdj h)) ?_ ?_ hout
    · intro e he
      refine (I.ch.seg e he).2.imp_right ?_
      rintro ⟨k, hk, hk1, hk2⟩
      by_cases hkc : k = c
      · subst hkc
        exact ⟨d, R.usedD, by omega, by omega⟩
      · exact ⟨k, (R.used k).2 (Or.inl ⟨hk, hkc⟩), hk1, hk2⟩
    · intro k hk
      rcases (R.used k).1 hk with h | rfl
      · exact I.ch.room k h.1
      · refine room_of (R.wf.addr_dvd R.usedD.1) hdw.dvd hdw.ge hb hn R.fit ?_
        have := R.ptr
        rw [← R.addr] at this
        exact this
  refine ⟨m, d, A', ?_, ⟨⟨I', fun k hk hkc => (R.used k).2 (Or.inl ⟨hk, hkc⟩), rfl, ⟨rfl, rfl⟩, ?_⟩, R.used, hne, R.fit,
    R.align, R.off, R.noPad, ⟨R.addr, R.size⟩, R.shape⟩⟩
  · have h1 : padAndReturn (adj l x u) (c.addr + 15) b =
        (adj l x (padAndReturn u (c.addr + 15) b).1, (padAndReturn u (c.addr + 15) b).2) := by
      unfold padAndReturn
      have e1 : (adj l x u).w = u.w := rfl
      rw [e1]
      generalize (if b > 1 then setupChunkPadded u.w.mem (c.addr + 15) b else (u.w.mem, c.addr + 15)) = z
      rfl
    rw [h1, e]
  · intro x hx
    obtain ⟨h1, h2, h3, h4⟩ := I.kept hx
    refine f x ?_
    have hu := W.uptr_ge c
    rcases h4 with h4 | ⟨k, hk, hkc, h5, h6⟩
    · by_contra hcx
      obtain ⟨g, hg, hcg⟩ := hc.1
      exact h4 (AHeap.segAt_ext W hg (Seg.mem_ext hcg) (by omega) (by omega))
    · have := W.has_disj hk.1 hc.1 hkc
      have := W.uptr_ge k
      omega

end OnNode
end MpcAlloc

import Verif.Concurrent
import Verif.History

/-
Invariant of the interleaved calls: the memory of the interleaved run and the memory of the calls run one at a time
in lock order represent the same abstract heap, in which a chunk that was taken but not yet returned has no padding.
-/

namespace MpcAlloc

variable {σ : Type}

/-! ### Parts of calls -/

/-- Pointer returned by an allocation that took chunk `v`. -/
def retPtr (v b : Nat) : Nat := if b ≤ 1 ∨ (v + 1) % b = 0 then v + 1 else alignUp (v + 9) b

/-- Pointer of the block that a thread is freeing, before the lock, or will return. -/
def busyOf : KPc → Option Nat
  | .freeRead p | .freeSwap p _ | .freeLoad p _ | .freeCrit p _ => some p
  | .allocUnlock b _ v _ | .allocPad b _ v _ => if v = 0 then none else some (retPtr v b)
  | _ => none

/-- Chunk that a thread took and has not yet returned. -/
def rawOf : KPc → Option Nat
  | .allocUnlock _ _ v _ | .allocPad _ _ v _ => if v = 0 then none else some v
  | _ => none

/-- Rank of a call that is in the log and not over. -/
def idxOf : KPc → Option Nat
  | .allocUnlock _ _ _ i | .allocPad _ _ _ i | .freeUnlock i => some i
  | _ => none

/-- The thread has the lock. -/
def holdsOf : KPc → Bool
  | .allocCrit _ _ | .allocUnlock _ _ _ _ | .freeCrit _ _ | .freeUnlock _ => true
  | _ => false

theorem PadDone.congr {m m' : Mem} {d : Ck} {b n : Nat} (hd : 16 ∣ d.addr) (hb : GoodBound b)
    (hsz : n + (if 1 < b then b else 0) + 16 ≤ d.size) (h : PadDone m d b)
    (e : ∀ x, d.addr + 16 ≤ x → x < d.addr + d.size → m' x = m x) : PadDone m' d b := by
  by_cases h1 : b ≤ 1
  · exact Or.inl h1
  by_cases h2 : (d.addr + 16) % b = 0
  · exact Or.inr (Or.inl h2)
  have hfit := pow2_fit hd (hb.resolve_left h1) h2
  have hge := alignUp_ge (d.addr + 24) b
  rw [if_pos (by omega)] at hsz
  refine Or.inr (Or.inr ?_)
  rcases h with h | h | h
  · omega
  · omega
  · exact h.congr (fun x g1 g2 => e x (by omega) (by omega))

/-- The locked part of an allocation of a valid size. -/
theorem locked_ok {pb : Nat} {A : AHeap} {b n : Nat} (S : Source σ) (W : A.WF pb) (hn : n ≠ 0)
    (hsz : alignedSize b n + 16 < W63 ∨ (alignedSize b n + 16 < W64 ∧ A.fl 42 = [])) :
    (∀ s : CS σ, s.c.pool = stdPool pb → s.c.hasSrc = false → MemOK (stdPool pb) s.heap A →
      allocLocked S s (if b > 1 then add64 n b else n) = .ok (s, 0)) ∨
    ∃ c d A', A.Has c ∧ c.st = .free ∧ TakeRel pb A c (alignedSize b n) d A' ∧
      n + (if 1 < b then b else 0) + 16 ≤ d.size ∧
      ∀ s : CS σ, s.c.pool = stdPool pb → MemOK (stdPool pb) s.heap A →
        ∃ h', allocLocked S s (if b > 1 then add64 n b else n) = .ok (s.setHeap h', d.addr + 15) ∧
          MemOK (stdPool pb) h' A' ∧ ∀ x, Quiet pb A x → h'.mem x = s.w.mem x := by
  have hcalc := calc_eq (n := alignedSize b n) (by omega)
  have hN : (if b > 1 then add64 n b else n) = alignedSize b n := by
    unfold alignedSize at hsz ⊢
    split
    · rw [if_pos (by omega)] at hsz
      exact add64_eq (by omega)
    · rfl
  rw [hN]
  by_cases hbig : W63 ≤ calcChunkSize (alignedSize b n)
  · have h42 : A.fl 42 = [] := by
      rcases hsz with h | h
      · omega
      · exact h.2
    exact Or.inl (fun s hp hsrc hM => allocLocked_neg_none S W hbig h42 hp hsrc hM)
  have hc63 : calcChunkSize (alignedSize b n) < W63 := by omega
  obtain ⟨k, hk⟩ := searchClass_exists (calc_ge (alignedSize b n)) hc63
  cases hf : A.find k (calcChunkSize (alignedSize b n)) with
  | none => exact Or.inl (fun s hp hsrc hM => allocLocked_none S W hc63 hk hf hp hsrc hM)
  | some c =>
    obtain ⟨k1, k2, d, A1, R, hs⟩ := allocLocked_found S W hc63 hk hf
    refine Or.inr ⟨c, d, A1, k1, k2, R, ?_, hs⟩
    have hsize := R.size
    rw [hcalc] at hsize
    clear hsz hN hk hf hcalc hbig hc63
    unfold alignedSize at hsize
    by_cases h : 1 < b
    · rw [if_pos h] at hsize; rw [if_pos h]; omega
    · rw [if_neg h] at hsize; rw [if_neg h]; omega

/-- A whole allocation from its locked part. -/
theorem allocAlign_of_locked (S : Source σ) {s : CS σ} {b n v : Nat} {h1 : Heap} (hd : s.c.dead = false)
    (hl : s.c.lock = false) (hsrc : s.c.hasSrc = false) (hn : n ≠ 0)
    (e : allocLocked S { s with c := { s.c with lock := s.c.threadSafe } } (if b > 1 then add64 n b else n) =
      .ok (({ s with c := { s.c with lock := s.c.threadSafe } } : CS σ).setHeap h1, v)) :
    allocAlign S s b n = .ok (if v = 0 then (s.setHeap h1, 0) else padAndReturn (s.setHeap h1) v b) := by
  unfold allocAlign
  rw [if_neg (by simp [hd]), if_neg hn]
  simp only
  have hh : ∀ z, isHuge s.c z = false := by intro z; simp [isHuge, hsrc]
  rw [hh, if_neg (by simp), lockIf_ok hd hl, Outcome.ok_bind, e, Outcome.ok_bind]
  simp only
  rw [unlockIf_ok hd hl, Outcome.ok_bind]
  split <;> rfl

theorem Run.snoc {S : Source σ} {C : Config} {pb : Nat} {s s' s1 : CS σ} {L L' : List Block}
    {B B' : List (Nat × Nat)} {ops : List Op} {rs : List Nat} {op : Op} {r : Nat}
    (h : Run S C pb s L B ops rs s' L' B') (hv : ValidOp pb L' B' op) (hr : RegOK s' op)
    (e : exec S C s' op = .ok (s1, r)) :
    Run S C pb s L B (ops ++ [op]) (rs ++ [r]) s1 (account L' op r) (accountBufs B' op) := by
  induction h with
  | nil => exact .cons hv hr e .nil
  | cons h1 h2 h3 _ ih => exact .cons h1 h2 h3 (ih hv hr e)

theorem Run.length {S : Source σ} {C : Config} {pb : Nat} {s s' : CS σ} {L L' : List Block}
    {B B' : List (Nat × Nat)} {ops : List Op} {rs : List Nat} (h : Run S C pb s L B ops rs s' L' B') :
    rs.length = ops.length := by
  induction h with
  | nil => rfl
  | cons _ _ _ _ ih => simp [ih]

/-! ### Lock -/

/-- The lock word is set exactly when one thread has the lock. -/
structure LockOK (lk : Bool) (pc : Nat → KPc) : Prop where
  iff : lk = true ↔ ∃ t, holdsOf (pc t) = true
  one : ∀ t u, holdsOf (pc t) = true → holdsOf (pc u) = true → t = u

theorem LockOK.same {lk : Bool} {pc : Nat → KPc} {t : Nat} {P : KPc} (h : LockOK lk pc)
    (e : holdsOf P = holdsOf (pc t)) : LockOK lk (fun u => if u = t then P else pc u) := by
  have : ∀ u, holdsOf ((fun u => if u = t then P else pc u) u) = holdsOf (pc u) := by
    intro u; simp only; split
    · rename_i h; subst h; exact e
    · rfl
  refine ⟨?_, ?_⟩
  · simp only [this]; exact h.iff
  · intro a b; rw [this, this]; exact h.one a b

theorem LockOK.take {pc : Nat → KPc} {t : Nat} {P : KPc} (h : LockOK false pc) (e : holdsOf P = true) :
    LockOK true (fun u => if u = t then P else pc u) := by
  have hno : ∀ u, holdsOf (pc u) ≠ true := fun u hu => by simpa using h.iff.2 ⟨u, hu⟩
  refine ⟨⟨fun _ => ⟨t, by simp [e]⟩, fun _ => rfl⟩, ?_⟩
  intro a b ha hb
  have key : ∀ u, holdsOf ((fun u => if u = t then P else pc u) u) = true → u = t := by
    intro u hu
    by_contra hne
    simp only [if_neg hne] at hu
    exact hno u hu
  rw [key a ha, key b hb]

theorem LockOK.drop {lk : Bool} {pc : Nat → KPc} {t : Nat} {P : KPc} (h : LockOK lk pc) (ht : holdsOf (pc t) = true)
    (e : holdsOf P = false) : LockOK false (fun u => if u = t then P else pc u) := by
  have key : ∀ u, holdsOf ((fun u => if u = t then P else pc u) u) ≠ true := by
    intro u hu
    by_cases hne : u = t
    · simp [hne, e] at hu
    · simp only [if_neg hne] at hu
      exact hne (h.one _ _ hu ht)
  exact ⟨⟨fun h => absurd h (by simp), fun ⟨u, hu⟩ => absurd hu (key u)⟩, fun a _ ha => absurd ha (key a)⟩

theorem LockOK.held {pc : Nat → KPc} {lk : Bool} (h : LockOK lk pc) {t : Nat} (ht : holdsOf (pc t) = true) : lk = true :=
  h.iff.2 ⟨t, ht⟩

/-! ### Invariant -/

/-- What is known about a thread. -/
def PcOK (B : List (Nat × Nat)) (A : AHeap) (m : Mem) (Ls : List Block) (rs : List Nat) : KPc → Prop
  | .idle => True
  | .allocSwap b n | .allocLoad b n | .allocCrit b n => GoodBound b ∧ SizeOK B b n ∧ n ≠ 0
  | .allocUnlock b n v i | .allocPad b n v i =>
    rs[i]? = some (if v = 0 then 0 else retPtr v b) ∧
      (v ≠ 0 → ∃ d, A.Used d ∧ d.addr + 15 = v ∧ d.st = .used none ∧ GoodBound b ∧
        n + (if 1 < b then b else 0) + 16 ≤ d.size ∧ PadDone m d b ∧ (⟨retPtr v b, n, decide (b ≤ 1)⟩ : Block) ∈ Ls)
  | .freeRead _ => True
  | .freeSwap p v | .freeLoad p v | .freeCrit p v => ∃ c, A.Used c ∧ c.uptr = p ∧ c.addr + 15 = v
  | .freeUnlock i => rs[i]? = some 0

/-- The chunk of a block: either the block was returned, or a thread took the chunk and will return the block. -/
def Hold (pc : Nat → KPc) (c : Ck) (l : Block) : Prop :=
  (c.uptr = l.ptr ∧ l.ptr + l.len ≤ c.addr + c.size ∧ (l.plain = true → c.st = .used none) ∧
      ∀ t, rawOf (pc t) ≠ some (c.addr + 15)) ∨
    ∃ t, rawOf (pc t) = some (c.addr + 15) ∧ busyOf (pc t) = some l.ptr

/-- Invariant. `s` is the state after the calls of the log, one at a time, `rs` their results, `Ls` the blocks that
are live then, `B` the buffers given to the chain (`B0` at the start). -/
structure KInv (S : Source σ) (C : Config) (pb : Nat) (B0 B : List (Nat × Nat)) (s0 : CS σ) (L0 : List Block)
    (k : KS σ) (s : CS σ) (rs : List Nat) (Ls : List Block) (A : AHeap) : Prop where
  run : Run S C pb s0 L0 B0 k.log rs s Ls B
  wf : A.WF pb
  memK : MemOK (stdPool pb) k.s.heap A
  inv : ChainInv pb s A
  src : s.c.hasSrc = false
  ts : s.c.threadSafe = true
  bufs : A.shape = B
  noAdj : s.c.noMerge = false → A.NoAdj
  regs : s.w.regs.OK
  based : B ≠ [] → s.c.base ≠ 0
  eqw : k.s.w.regs.OK ∧ k.s.w.regs.ent = s.w.regs.ent
  eqc : k.s.c = { s.c with lock := k.s.c.lock, status := k.s.c.status }
  lock : LockOK k.s.c.lock k.pc
  pcok : ∀ t, PcOK B A s.w.mem Ls rs (k.pc t)
  used : ∀ l ∈ Ls, ∃ c, A.Used c ∧ Hold k.pc c l
  all : ∀ c, A.Used c → ∃ l ∈ Ls, Hold k.pc c l
  live : ∀ l, l ∈ k.live ↔ l ∈ Ls ∧ ∀ t, busyOf (k.pc t) ≠ some l.ptr
  busy : ∀ t p, busyOf (k.pc t) = some p → ∃ l ∈ Ls, l.ptr = p
  inj : ∀ t u p, busyOf (k.pc t) = some p → busyOf (k.pc u) = some p → t = u
  injR : ∀ t u v, rawOf (k.pc t) = some v → rawOf (k.pc u) = some v → t = u
  ret : ∀ i r, k.ret i = some r → rs[i]? = some r
  pend : ∀ i, i < k.log.length → k.ret i ≠ none ∨ ∃ t, idxOf (k.pc t) = some i
  data : ∀ l ∈ k.live, ∀ x, l.Byte x → ∀ v, k.data x = some v → k.s.w.mem x = v

variable {S : Source σ} {C : Config} {pb : Nat} {B0 B : List (Nat × Nat)} {s0 s : CS σ} {L0 Ls : List Block} {k : KS σ}
  {rs : List Nat} {A : AHeap}

theorem upd_of {α : Type} (f : KPc → α) {pc : Nat → KPc} {t : Nat} {P : KPc} (e : f P = f (pc t)) (u : Nat) :
    f (if u = t then P else pc u) = f (pc u) := by
  split
  · rename_i h; subst h; exact e
  · rfl

theorem KInv.nodup (hf : C.reallocFactor ≠ 0) (h0 : Reach S C pb s0 L0 B0)
    (H : KInv S C pb B0 B s0 L0 k s rs Ls A) : (Ls.map Block.ptr).Nodup := by
  obtain ⟨A', H'⟩ := reach_inv hf (h0.run H.run)
  exact H'.live.nodup

theorem PcOK.mono {pb : Nat} {A A' : AHeap} {m m' : Mem} {Ls' : List Block} {rs' : List Nat} {P : KPc} (W : A.WF pb)
    (hrs : ∀ i r : Nat, rs[i]? = some r → rs'[i]? = some r)
    (hraw : ∀ v, rawOf P = some v → ∀ d, A.Used d → d.addr + 15 = v →
      A'.Used d ∧ ∀ x, d.addr + 16 ≤ x → x < d.addr + d.size → m' x = m x)
    (hfree : ∀ p, busyOf P = some p → rawOf P = none → ∀ c, A.Used c → c.uptr = p → A'.Used c)
    (hLs : ∀ l ∈ Ls, busyOf P = some l.ptr → l ∈ Ls') (h : PcOK B A m Ls rs P) : PcOK B A' m' Ls' rs' P := by
  have key : ∀ b n v i, rawOf P = (if v = 0 then none else some v) →
      busyOf P = (if v = 0 then none else some (retPtr v b)) →
      PcOK B A m Ls rs (.allocPad b n v i) → PcOK B A' m' Ls' rs' (.allocPad b n v i) := by
    rintro b n v i e1 e2 ⟨h1, h2⟩
    refine ⟨hrs _ _ h1, ?_⟩
    intro hv
    obtain ⟨d, g1, g2, g3, g4, g5, g6, g7⟩ := h2 hv
    rw [if_neg hv] at e1 e2
    obtain ⟨k1, k2⟩ := hraw v e1 d g1 g2
    exact ⟨d, k1, g2, g3, g4, g5, g6.congr (W.addr_dvd g1.1) g4 g5 k2, hLs _ g7 e2⟩
  cases P with
  | idle => trivial
  | allocSwap b n => exact h
  | allocLoad b n => exact h
  | allocCrit b n => exact h
  | allocUnlock b n v i => exact key b n v i rfl rfl h
  | allocPad b n v i => exact key b n v i rfl rfl h
  | freeRead p => trivial
  | freeSwap p v => obtain ⟨c, h1, h2, h3⟩ := h; exact ⟨c, hfree p rfl rfl c h1 h2, h2, h3⟩
  | freeLoad p v => obtain ⟨c, h1, h2, h3⟩ := h; exact ⟨c, hfree p rfl rfl c h1 h2, h2, h3⟩
  | freeCrit p v => obtain ⟨c, h1, h2, h3⟩ := h; exact ⟨c, hfree p rfl rfl c h1 h2, h2, h3⟩
  | freeUnlock i => exact hrs _ _ h

theorem PcOK.more {rs' : List Nat} {m : Mem} {P : KPc} (hrs : ∀ i r : Nat, rs[i]? = some r → rs'[i]? = some r)
    (W : A.WF pb) (h : PcOK B A m Ls rs P) : PcOK B A m Ls rs' P :=
  h.mono W hrs (fun _ _ d hd _ => ⟨hd, fun _ _ _ => rfl⟩) (fun _ _ _ _ hc _ => hc) (fun _ hl _ => hl)

/-- A step that moves a thread, sets the lock word, and perhaps logs calls and returns. -/
theorem KInv.moveLog (H : KInv S C pb B0 B s0 L0 k s rs Ls A) {t : Nat} {P : KPc} {lk : Bool} {log' : List Op}
    {ret' : Nat → Option Nat} {rs' : List Nat}
    (hb : busyOf P = busyOf (k.pc t)) (hr : rawOf P = rawOf (k.pc t))
    (hp : PcOK B A s.w.mem Ls rs' P) (hl : LockOK lk (fun u => if u = t then P else k.pc u))
    (hrun : Run S C pb s0 L0 B0 log' rs' s Ls B) (hrs : ∀ i r : Nat, rs[i]? = some r → rs'[i]? = some r)
    (hret : ∀ i r, ret' i = some r → rs'[i]? = some r)
    (hpend : ∀ i, i < log'.length → ret' i ≠ none ∨ ∃ u, idxOf (if u = t then P else k.pc u) = some i) :
    KInv S C pb B0 B s0 L0 { (k.setLock lk).goto t P with log := log', ret := ret' } s rs' Ls A := by
  have eb := upd_of busyOf hb
  have er := upd_of rawOf hr
  have eh : ∀ c l, Hold (fun u => if u = t then P else k.pc u) c l ↔ Hold k.pc c l := by
    intro c l
    unfold Hold
    simp only [eb, er]
  refine ⟨hrun, H.wf, H.memK, H.inv, H.src, H.ts, H.bufs, H.noAdj, H.regs, H.based, H.eqw, ?_, hl, ?_, ?_, ?_, ?_, ?_,
    ?_, ?_, hret, hpend, H.data⟩
  · have := congrArg (fun c : Chain => { c with lock := lk }) H.eqc
    exact this
  · intro u
    show PcOK _ _ _ _ _ (if u = t then P else k.pc u)
    split
    · exact hp
    · exact (H.pcok u).more hrs H.wf
  · intro l hl
    obtain ⟨c, h1, h2⟩ := H.used l hl
    exact ⟨c, h1, (eh c l).2 h2⟩
  · intro c hc
    obtain ⟨l, h1, h2⟩ := H.all c hc
    exact ⟨l, h1, (eh c l).2 h2⟩
  · intro l
    show l ∈ k.live ↔ l ∈ Ls ∧ ∀ u, busyOf (if u = t then P else k.pc u) ≠ some l.ptr
    simp only [eb]
    exact H.live l
  · intro u p hu
    refine H.busy u p ?_
    rw [← eb u]; exact hu
  · intro u v p hu hv
    refine H.inj u v p ?_ ?_
    · rw [← eb u]; exact hu
    · rw [← eb v]; exact hv
  · intro u v p hu hv
    refine H.injR u v p ?_ ?_
    · rw [← er u]; exact hu
    · rw [← er v]; exact hv

/-- A step that only moves a thread and sets the lock word. -/
theorem KInv.move (H : KInv S C pb B0 B s0 L0 k s rs Ls A) {t : Nat} {P : KPc} {lk : Bool}
    (hb : busyOf P = busyOf (k.pc t)) (hr : rawOf P = rawOf (k.pc t)) (hi : idxOf P = idxOf (k.pc t))
    (hp : PcOK B A s.w.mem Ls rs P) (hl : LockOK lk (fun u => if u = t then P else k.pc u)) :
    KInv S C pb B0 B s0 L0 ((k.setLock lk).goto t P) s rs Ls A := by
  have ei := upd_of idxOf hi
  refine H.moveLog hb hr hp hl H.run (fun _ _ h => h) H.ret ?_
  intro i hi
  refine (H.pend i hi).imp_right ?_
  rintro ⟨u, hu⟩
  exact ⟨u, by rw [ei u]; exact hu⟩

theorem getElem?_append_some {rs q : List Nat} {i r : Nat} (h : rs[i]? = some r) : (rs ++ q)[i]? = some r := by
  rw [List.getElem?_append_left]
  · exact h
  · exact (List.getElem?_eq_some_iff.1 h).1

/-- A block that a thread is freeing, before the lock. -/
theorem KInv.freeing (H : KInv S C pb B0 B s0 L0 k s rs Ls A) {t p : Nat} (hb : busyOf (k.pc t) = some p)
    (hr : rawOf (k.pc t) = none) :
    ∃ c l, A.Used c ∧ c.uptr = p ∧ (∀ u, rawOf (k.pc u) ≠ some (c.addr + 15)) ∧ l ∈ Ls ∧ l.ptr = p ∧
      l.ptr + l.len ≤ c.addr + c.size := by
  obtain ⟨l, hl, he⟩ := H.busy t p hb
  obtain ⟨c, hc, h | ⟨u, h1, h2⟩⟩ := H.used l hl
  · exact ⟨c, l, hc, h.1.trans he, h.2.2.2, hl, he, h.2.1⟩
  · rw [he] at h2
    obtain rfl := H.inj _ _ _ hb h2
    rw [hr] at h1; cases h1

/-- The chunk of a block that a client owns. -/
theorem KInv.owned (H : KInv S C pb B0 B s0 L0 k s rs Ls A) {l : Block} (hl : l ∈ k.live) :
    l ∈ Ls ∧ ∃ c, A.Used c ∧ c.uptr = l.ptr ∧ l.ptr + l.len ≤ c.addr + c.size ∧
      ∀ u, rawOf (k.pc u) ≠ some (c.addr + 15) := by
  obtain ⟨h1, h2⟩ := (H.live l).1 hl
  refine ⟨h1, ?_⟩
  obtain ⟨c, hc, h | ⟨u, _, h3⟩⟩ := H.used l h1
  · exact ⟨c, hc, h.1, h.2.1, h.2.2.2⟩
  · exact absurd h3 (h2 u)

/-- A step leaves the chunks of the blocks that clients own as they are. -/
def KKeeps (k : KS σ) (A A' : AHeap) : Prop := ∀ l ∈ k.live, ∀ c, A.Used c → c.uptr = l.ptr → A'.Used c

theorem KKeeps.same (k : KS σ) (A : AHeap) : KKeeps k A A := fun _ _ _ h _ => h

/-! ### Steps of a thread that is idle -/

/-- A call that takes no lock and changes nothing. -/
theorem KInv.now (H : KInv S C pb B0 B s0 L0 k s rs Ls A) {op : Op} {t : Nat} {P : KPc} (hP : k.pc t = P)
    (hv : ValidOp pb Ls B op) (hr : RegOK s op)
    (e : exec S C s op = .ok (s, 0)) (hL : account Ls op 0 = Ls) (hB : accountBufs B op = B) :
    KInv S C pb B0 B s0 L0 (k.now op) s (rs ++ [0]) Ls A := by
  have hlen := H.run.length
  have hpc : ∀ u, (if u = t then P else k.pc u) = k.pc u := by
    intro u; split
    · rename_i h; rw [h, hP]
    · rfl
  have hrun := H.run.snoc hv hr e
  rw [hL, hB] at hrun
  have := H.moveLog (t := t) (P := P) (lk := k.s.c.lock) (log' := k.log ++ [op])
    (ret' := fun j => if j = k.log.length then some 0 else k.ret j) (rs' := rs ++ [0]) (by rw [hP]) (by rw [hP])
    (by rw [← hP]; exact (H.pcok t).more (fun i r h => getElem?_append_some h) H.wf)
    (by simp only [hpc]; exact H.lock) hrun (fun i r h => getElem?_append_some h) ?_ ?_
  · have e2 : (k.setLock k.s.c.lock).goto t P = k := by
      unfold KS.goto KS.setLock
      simp only [hpc]
    rw [e2] at this
    exact this
  · intro i r h
    split at h
    · rename_i hi
      cases h
      rw [hi, ← hlen]
      simp
    · exact getElem?_append_some (H.ret i r h)
  · intro i hi'
    simp only [List.length_append, List.length_singleton] at hi'
    by_cases hi2 : i = k.log.length
    · left; simp [hi2]
    · simp only [if_neg hi2, hpc]
      exact H.pend i (by omega)

theorem KInv.ptr_pos (H : KInv S C pb B0 B s0 L0 k s rs Ls A) {t p : Nat} (hb : busyOf (k.pc t) = some p)
    (hr : rawOf (k.pc t) = none) : p ≠ 0 := by
  obtain ⟨c, l, _, h, _⟩ := H.freeing hb hr
  have := H.wf.uptr_ge c
  omega

/-- A free starts. -/
theorem KInv.startFree (H : KInv S C pb B0 B s0 L0 k s rs Ls A) {t : Nat} {l : Block} (hpc : k.pc t = .idle) (hl : l ∈ k.live) :
    KInv S C pb B0 B s0 L0
      ({ k with live := k.live.filter (fun l' => decide (l'.ptr ≠ l.ptr)) }.goto t (.freeRead l.ptr)) s rs Ls A := by
  obtain ⟨hLs, hfree⟩ := (H.live l).1 hl
  have er : ∀ u, rawOf (if u = t then KPc.freeRead l.ptr else k.pc u) = rawOf (k.pc u) :=
    upd_of rawOf (by rw [hpc]; rfl)
  have ei : ∀ u, idxOf (if u = t then KPc.freeRead l.ptr else k.pc u) = idxOf (k.pc u) :=
    upd_of idxOf (by rw [hpc]; rfl)
  have hnr : ∀ u v, rawOf (k.pc u) = some v → u ≠ t := by
    rintro u v h rfl; rw [hpc] at h; cases h
  have eh : ∀ c l', Hold k.pc c l' → Hold (fun u => if u = t then KPc.freeRead l.ptr else k.pc u) c l' := by
    intro c l' h
    rcases h with h | ⟨u, h1, h2⟩
    · exact Or.inl ⟨h.1, h.2.1, h.2.2.1, fun u => by rw [er u]; exact h.2.2.2 u⟩
    · refine Or.inr ⟨u, ?_, ?_⟩
      · simp only; rw [er u]; exact h1
      · simp only [if_neg (hnr u _ h1)]; exact h2
  refine ⟨H.run, H.wf, H.memK, H.inv, H.src, H.ts, H.bufs, H.noAdj, H.regs, H.based, H.eqw, H.eqc, ?_, ?_, ?_, ?_, ?_, ?_,
    ?_, ?_, H.ret, ?_, ?_⟩
  · exact H.lock.same (by rw [hpc]; rfl)
  · intro u
    show PcOK _ _ _ _ _ (if u = t then _ else k.pc u)
    split
    · trivial
    · exact H.pcok u
  · intro l' hl'
    obtain ⟨c, h1, h2⟩ := H.used l' hl'
    exact ⟨c, h1, eh c l' h2⟩
  · intro c hc
    obtain ⟨l', h1, h2⟩ := H.all c hc
    exact ⟨l', h1, eh c l' h2⟩
  · intro l'
    show l' ∈ k.live.filter _ ↔ l' ∈ Ls ∧ ∀ u, busyOf (if u = t then KPc.freeRead l.ptr else k.pc u) ≠ some l'.ptr
    rw [List.mem_filter, H.live l']
    constructor
    · rintro ⟨⟨h1, h2⟩, h3⟩
      refine ⟨h1, fun u => ?_⟩
      split
      · simp only [busyOf]
        intro h
        simp at h h3
        exact h3 h.symm
      · exact h2 u
    · rintro ⟨h1, h2⟩
      refine ⟨⟨h1, fun u => ?_⟩, ?_⟩
      · by_cases hu : u = t
        · subst hu; rw [hpc]; simp [busyOf]
        · have := h2 u; rwa [if_neg hu] at this
      · have := h2 t
        rw [if_pos rfl] at this
        simp only [busyOf] at this
        simp only [decide_eq_true_eq]
        intro h
        exact this (by rw [h])
  · intro u p hu
    by_cases h : u = t
    · have hu' : busyOf (if u = t then KPc.freeRead l.ptr else k.pc u) = some p := hu
      rw [if_pos h] at hu'
      cases hu'
      exact ⟨l, hLs, rfl⟩
    · have hu' : busyOf (if u = t then KPc.freeRead l.ptr else k.pc u) = some p := hu
      rw [if_neg h] at hu'
      exact H.busy u p hu'
  · intro u v p hu hv
    have hu' : busyOf (if u = t then KPc.freeRead l.ptr else k.pc u) = some p := hu
    have hv' : busyOf (if v = t then KPc.freeRead l.ptr else k.pc v) = some p := hv
    by_cases h : u = t
    · by_cases h2 : v = t
      · rw [h, h2]
      · rw [if_pos h] at hu'
        rw [if_neg h2] at hv'
        cases hu'
        exact absurd hv' (hfree v)
    · by_cases h2 : v = t
      · rw [if_neg h] at hu'
        rw [if_pos h2] at hv'
        cases hv'
        exact absurd hu' (hfree u)
      · rw [if_neg h] at hu'
        rw [if_neg h2] at hv'
        exact H.inj u v p hu' hv'
  · intro u v p hu hv
    refine H.injR u v p ?_ ?_
    · rw [← er u]; exact hu
    · rw [← er v]; exact hv
  · intro i hi
    refine (H.pend i hi).imp_right ?_
    rintro ⟨u, hu⟩
    exact ⟨u, by rw [← ei u] at hu; exact hu⟩
  · intro l' hl' x hx v hv
    exact H.data l' (List.mem_filter.1 hl').1 x hx v hv

/-- A store of a client. -/
theorem KInv.write (H : KInv S C pb B0 B s0 L0 k s rs Ls A) {a : Nat} {v : UInt8} {l : Block}
    (hl : l ∈ k.live) (ha : l.Byte a) :
    KInv S C pb B0 B s0 L0
      ({ k with s := k.s.setMem (fun x => if x = a then v else k.s.w.mem x),
                data := fun x => if x = a then some v else k.data x }.now (.write a v))
      (s.setMem (fun x => if x = a then v else s.w.mem x)) (rs ++ [0]) Ls A := by
  obtain ⟨hLs, c, hc, c1, c2, c3⟩ := H.owned hl
  obtain ⟨a1, a2⟩ := ha
  have hu : A.UserAt a := ⟨c, hc, by omega, by omega⟩
  have hmem : ∀ h : Heap, MemOK (stdPool pb) h A →
      MemOK (stdPool pb) { h with mem := fun x => if x = a then v else h.mem x } A := by
    intro h hM
    refine hM.congr H.wf ?_
    intro x hm
    have : x ≠ a := by
      rintro rfl
      rcases hm with hm | hm
      · exact (H.wf.user_quiet hu).1 hm
      · exact hm.2 hu
    rw [if_neg this]
  have hlen := H.run.length
  have hrun := H.run.snoc (op := .write a v) (r := 0) ⟨l, hLs, a1, a2⟩ trivial rfl
  refine ⟨hrun, H.wf, hmem _ H.memK, ⟨H.inv.pool, hmem _ H.inv.mem, H.inv.dead, H.inv.lock, H.inv.base⟩, H.src, H.ts,
    H.bufs, H.noAdj, H.regs, H.based, H.eqw, H.eqc, H.lock, ?_, H.used, H.all, H.live, H.busy, H.inj, H.injR, ?_, ?_, ?_⟩
  · intro u
    refine (H.pcok u).mono H.wf (fun i r h => getElem?_append_some h) ?_ (fun _ _ _ _ h _ => h) (fun _ h _ => h)
    intro w hw d hd he
    refine ⟨hd, fun x h1 h2 => ?_⟩
    show (if x = a then v else s.w.mem x) = s.w.mem x
    rw [if_neg]
    rintro rfl
    have hne : d ≠ c := by
      rintro rfl
      exact c3 u (by rw [he]; exact hw)
    have := H.wf.has_disj hd.1 hc.1 hne
    have := H.wf.uptr_ge c
    omega
  · intro i r h
    have h' : (if i = k.log.length then some 0 else k.ret i) = some r := h
    split at h'
    · rename_i hi
      cases h'
      rw [hi, ← hlen]
      simp
    · exact getElem?_append_some (H.ret i r h')
  · intro i hi'
    have hi' : i < (k.log ++ [Op.write a v]).length := hi'
    simp only [List.length_append, List.length_singleton] at hi'
    by_cases hi2 : i = k.log.length
    · left
      show (if i = k.log.length then some 0 else k.ret i) ≠ none
      simp [hi2]
    · rcases H.pend i (by omega) with h | h
      · left
        show (if i = k.log.length then some 0 else k.ret i) ≠ none
        rw [if_neg hi2]; exact h
      · exact Or.inr h
  · intro l' hl' x hx w hw
    have hw' : (if x = a then some v else k.data x) = some w := hw
    show (if x = a then v else k.s.w.mem x) = w
    split at hw'
    · rename_i h; rw [if_pos h]; cases hw'; rfl
    · rename_i h; rw [if_neg h]; exact H.data l' hl' x hx w hw'

/-! ### Locked parts -/

theorem KInv.pool (H : KInv S C pb B0 B s0 L0 k s rs Ls A) : k.s.c.pool = stdPool pb := by
  rw [H.eqc]; exact H.inv.pool

theorem KInv.noSrc (H : KInv S C pb B0 B s0 L0 k s rs Ls A) : k.s.c.hasSrc = false := by
  rw [H.eqc]; exact H.src

/-- A chunk that was taken and not yet returned. -/
theorem KInv.raw (H : KInv S C pb B0 B s0 L0 k s rs Ls A) {u v : Nat} (h : rawOf (k.pc u) = some v) :
    ∃ d, A.Used d ∧ d.addr + 15 = v ∧ d.st = .used none := by
  have hpu := H.pcok u
  have key : ∀ b' n' i', PcOK B A s.w.mem Ls rs (.allocPad b' n' v i') → v ≠ 0 →
      ∃ d, A.Used d ∧ d.addr + 15 = v ∧ d.st = .used none := by
    rintro b' n' i' ⟨_, h2⟩ hv0
    obtain ⟨e', g1, g2, g3, _⟩ := h2 hv0
    exact ⟨e', g1, g2, g3⟩
  cases hq : k.pc u with
  | allocUnlock b' n' v' i' =>
    rw [hq] at h hpu
    simp only [rawOf] at h
    split at h
    · cases h
    · cases h; exact key b' n' i' hpu (by omega)
  | allocPad b' n' v' i' =>
    rw [hq] at h hpu
    simp only [rawOf] at h
    split at h
    · cases h
    · cases h; exact key b' n' i' hpu (by omega)
  | _ => rw [hq] at h; cases h

/-- The locked part of an allocation. -/
theorem KInv.allocCrit (hf : C.reallocFactor ≠ 0) (h0 : Reach S C pb s0 L0 B0)
    (H : KInv S C pb B0 B s0 L0 k s rs Ls A) {t b n : Nat} (hpc : k.pc t = .allocCrit b n) (act : KAct) :
    ∃ k', kstep S C k t act = .ok k' ∧ ∃ s' rs' Ls' A', KInv S C pb B0 B s0 L0 k' s' rs' Ls' A' ∧ KKeeps k A A' := by
  obtain ⟨hb, hsz, hn⟩ : GoodBound b ∧ SizeOK B b n ∧ n ≠ 0 := by
    have := H.pcok t; rw [hpc] at this; exact this
  have hlen := H.run.length
  have hnb : busyOf (k.pc t) = none := by rw [hpc]; rfl
  have hnr : rawOf (k.pc t) = none := by rw [hpc]; rfl
  have hni : idxOf (k.pc t) = none := by rw [hpc]; rfl
  have hlk : LockOK k.s.c.lock (fun u => if u = t then KPc.allocUnlock b n 0 k.log.length else k.pc u) :=
    H.lock.same (by rw [hpc]; rfl)
  have hrs : ∀ r : Nat, ∀ i q : Nat, rs[i]? = some q → (rs ++ [r])[i]? = some q := fun r i q h => getElem?_append_some h
  have hpend : ∀ (v : Nat) (log' : List Op), log'.length = k.log.length + 1 → ∀ i, i < log'.length → k.ret i ≠ none ∨
      ∃ u, idxOf (if u = t then KPc.allocUnlock b n v k.log.length else k.pc u) = some i := by
    intro v log' hl i hi
    by_cases hi2 : i = k.log.length
    · exact Or.inr ⟨t, by rw [if_pos rfl, hi2]; rfl⟩
    · refine (H.pend i (by omega)).imp_right ?_
      rintro ⟨u, hu⟩
      refine ⟨u, ?_⟩
      rw [if_neg]
      · exact hu
      · rintro rfl; rw [hni] at hu; cases hu
  rcases locked_ok S H.wf hn (sizeOK_aligned H.wf H.bufs hsz) with hno | ⟨c, d, A', hc, hcf, R, hds, hgot⟩
  · have e1 := hno k.s H.pool H.noSrc H.memK
    have e2 : allocAlign S s b n = .ok (s, 0) := by
      have := allocAlign_of_locked S (h1 := s.heap) (v := 0) H.inv.dead H.inv.lock H.src hn
        (hno { s with c := { s.c with lock := s.c.threadSafe } } H.inv.pool H.src H.inv.mem)
      rw [this, if_pos rfl]; rfl
    have hrun := H.run.snoc (op := .alloc b n) ⟨hb, hsz⟩ trivial e2
    refine ⟨_, by unfold kstep; rw [hpc]; simp only; rw [e1, Outcome.ok_bind]; rfl, s, rs ++ [0], Ls, A, ?_, .same k A⟩
    have := H.moveLog (t := t) (P := .allocUnlock b n 0 k.log.length) (lk := k.s.c.lock) (log' := k.log ++ [.alloc b n])
      (ret' := k.ret) (rs' := rs ++ [0]) (by rw [hnb]; rfl) (by rw [hnr]; rfl)
      ⟨by rw [← hlen]; simp, fun h => absurd rfl h⟩ hlk hrun (hrs 0)
      (fun i r h => getElem?_append_some (H.ret i r h)) (hpend 0 _ (by simp))
    exact this
  · obtain ⟨hk, ek, Mk, fk⟩ := hgot k.s H.pool H.memK
    obtain ⟨h1, es, Ms, fs⟩ := hgot { s with c := { s.c with lock := s.c.threadSafe } } H.inv.pool H.inv.mem
    have hdU : A'.Used d := ⟨R.has, none, R.st⟩
    obtain ⟨d', A2, R2, hne, hp1, hp2⟩ := padReturn_both (σ := σ) (n := n) R.wf hdU R.st hb hds
    obtain ⟨m2, ep, _, Pd, fp⟩ := hp1 (s.setHeap h1) Ms
    have hret : d'.uptr = retPtr (d.addr + 15) b := by
      rw [R2.ptr]; rfl
    have e2 : allocAlign S s b n = .ok (s.setHeap ⟨m2, h1.status⟩, retPtr (d.addr + 15) b) := by
      rw [allocAlign_of_locked S H.inv.dead H.inv.lock H.src hn es, if_neg (by omega), ep, hret]
      rfl
    have hne' : retPtr (d.addr + 15) b ≠ 0 := by rw [← hret]; exact hne
    have hrun := H.run.snoc (op := .alloc b n) ⟨hb, hsz⟩ trivial e2
    have hL : account Ls (.alloc b n) (retPtr (d.addr + 15) b) =
        ⟨retPtr (d.addr + 15) b, n, decide (b ≤ 1)⟩ :: Ls := by
      simp only [account, if_neg hne']
    rw [hL] at hrun
    have hnodup : ((⟨retPtr (d.addr + 15) b, n, decide (b ≤ 1)⟩ :: Ls : List Block).map Block.ptr).Nodup := by
      obtain ⟨A', H'⟩ := reach_inv hf (h0.run hrun)
      exact H'.live.nodup
    have hnew : ∀ l ∈ Ls, l.ptr ≠ retPtr (d.addr + 15) b := by
      intro l hl h
      rw [List.map_cons, List.nodup_cons] at hnodup
      exact hnodup.1 (by rw [← h]; exact List.mem_map.2 ⟨l, hl, rfl⟩)
    -- the chunk was free
    have hnu : ∀ e, A.Used e → e.addr ≠ d.addr := by
      rintro e ⟨h1, p, h2⟩ h
      have := H.wf.addr_inj h1 hc (h.trans R.addr)
      subst this
      rw [hcf] at h2; simp at h2
    have hMs : MemOK (stdPool pb) ⟨m2, h1.status⟩ A' := by
      refine Ms.congr R.wf ?_
      intro x hx
      refine fp x ?_
      by_contra hcon
      have hux : A'.UserAt x := ⟨d, hdU, by unfold Ck.uptr Ck.off; rw [R.st]; simp only; omega, by omega⟩
      rcases hx with hx | hx
      · exact (R.wf.user_quiet hux).1 hx
      · exact hx.2 hux
    have hother : ∀ e, A.Used e → ∀ x, e.addr + 16 ≤ x → x < e.addr + e.size → A.Used e →
        Quiet pb A x → m2 x = s.w.mem x := by
      intro e he x g1 g2 _ hq
      rw [fp x]
      · exact fs x hq
      · have hd2 : e ≠ d := by rintro rfl; exact hnu e he rfl
        have := R.wf.has_disj ((R.used e).2 (Or.inl he)).1 R.has hd2
        omega
    generalize hr0 : retPtr (d.addr + 15) b = r at *
    refine ⟨_, by unfold kstep; rw [hpc]; simp only; rw [ek, Outcome.ok_bind]; rfl, s.setHeap ⟨m2, h1.status⟩,
      rs ++ [r], ⟨r, n, decide (b ≤ 1)⟩ :: Ls, A', ?_, fun _ _ e he _ => (R.used e).2 (Or.inl he)⟩
    have hbt : busyOf (KPc.allocUnlock b n (d.addr + 15) k.log.length) = some r := by
      show (if d.addr + 15 = 0 then none else some (retPtr (d.addr + 15) b)) = _
      rw [if_neg (by omega), hr0]
    have hrt : rawOf (KPc.allocUnlock b n (d.addr + 15) k.log.length) = some (d.addr + 15) := by
      show (if d.addr + 15 = 0 then none else some (d.addr + 15)) = _
      rw [if_neg (by omega)]
    have hold : ∀ e l, A.Used e → Hold k.pc e l →
        Hold (fun u => if u = t then KPc.allocUnlock b n (d.addr + 15) k.log.length else k.pc u) e l := by
      intro e l he h
      rcases h with h | ⟨u, g1, g2⟩
      · refine Or.inl ⟨h.1, h.2.1, h.2.2.1, fun u => ?_⟩
        simp only
        split
        · rw [hrt]
          intro h
          have := hnu e he
          simp at h; omega
        · exact h.2.2.2 u
      · have hut : u ≠ t := by rintro rfl; rw [hnr] at g1; cases g1
        exact Or.inr ⟨u, by simp only [if_neg hut]; exact g1, by simp only [if_neg hut]; exact g2⟩
    refine ⟨hrun, R.wf, Mk, ⟨H.inv.pool, hMs, H.inv.dead, H.inv.lock, (H.inv.setHeap hMs R.shape).base⟩, H.src, H.ts,
      R.shape.trans H.bufs, fun h => R.noAdj (H.noAdj h), H.regs, H.based, H.eqw, ?_, ?_, ?_, ?_, ?_, ?_, ?_, ?_, ?_, ?_,
      hpend _ (k.log ++ [.alloc b n]) (by simp), ?_⟩
    · exact congrArg (fun c : Chain => { c with status := hk.status }) H.eqc
    · exact H.lock.same (by rw [hpc]; rfl)
    · intro u
      show PcOK _ _ _ _ _ (if u = t then KPc.allocUnlock b n (d.addr + 15) k.log.length else k.pc u)
      split
      · refine ⟨?_, fun _ => ⟨d, hdU, rfl, R.st, hb, hds, Pd, ?_⟩⟩
        · rw [if_neg (by omega), ← hlen, hr0]; simp
        · rw [hr0]; exact List.mem_cons_self
      · refine (H.pcok u).mono H.wf (hrs r) ?_ ?_ (fun l hl _ => List.mem_cons_of_mem _ hl)
        · intro v hv e he hev
          refine ⟨(R.used e).2 (Or.inl he), fun x g1 g2 => hother e he x g1 g2 he ?_⟩
          have hst : e.st = .used none := by
            obtain ⟨e', g1, g2, g3⟩ := H.raw hv
            rw [H.wf.addr_inj he.1 g1.1 (by omega)]; exact g3
          exact H.wf.user_quiet ⟨e, he, by unfold Ck.uptr Ck.off; rw [hst]; exact g1, g2⟩
        · intro p _ _ e he _
          exact (R.used e).2 (Or.inl he)
    · intro l hl
      rcases List.mem_cons.1 hl with rfl | hl
      · exact ⟨d, hdU, Or.inr ⟨t, (congrArg rawOf (if_pos rfl)).trans hrt, (congrArg busyOf (if_pos rfl)).trans hbt⟩⟩
      · obtain ⟨e, he, h⟩ := H.used l hl
        exact ⟨e, (R.used e).2 (Or.inl he), hold e l he h⟩
    · intro e he
      rcases (R.used e).1 he with he | rfl
      · obtain ⟨l, hl, h⟩ := H.all e he
        exact ⟨l, List.mem_cons_of_mem _ hl, hold e l he h⟩
      · exact ⟨_, List.mem_cons_self, Or.inr ⟨t, (congrArg rawOf (if_pos rfl)).trans hrt, (congrArg busyOf (if_pos rfl)).trans hbt⟩⟩
    · intro l
      show l ∈ k.live ↔ l ∈ _ :: Ls ∧ ∀ u, busyOf (if u = t then KPc.allocUnlock b n (d.addr + 15) k.log.length else k.pc u) ≠ some l.ptr
      rw [H.live l]
      constructor
      · rintro ⟨g1, g2⟩
        refine ⟨List.mem_cons_of_mem _ g1, fun u => ?_⟩
        split
        · rw [hbt]
          intro h
          have := hnew l g1
          simp at h; exact this h.symm
        · exact g2 u
      · rintro ⟨g1, g2⟩
        rcases List.mem_cons.1 g1 with rfl | g1
        · have := g2 t
          rw [if_pos rfl, hbt] at this
          exact absurd rfl this
        · refine ⟨g1, fun u => ?_⟩
          by_cases hu : u = t
          · rw [hu, hnb]; simp
          · have := g2 u; rwa [if_neg hu] at this
    · intro u p hu
      have hu' : busyOf (if u = t then KPc.allocUnlock b n (d.addr + 15) k.log.length else k.pc u) = some p := hu
      split at hu'
      · rw [hbt] at hu'; cases hu'
        exact ⟨_, List.mem_cons_self, rfl⟩
      · obtain ⟨l, hl, h⟩ := H.busy u p hu'
        exact ⟨l, List.mem_cons_of_mem _ hl, h⟩
    · intro u v p hu hv
      have hu' : busyOf (if u = t then KPc.allocUnlock b n (d.addr + 15) k.log.length else k.pc u) = some p := hu
      have hv' : busyOf (if v = t then KPc.allocUnlock b n (d.addr + 15) k.log.length else k.pc v) = some p := hv
      by_cases h : u = t
      · by_cases h2 : v = t
        · rw [h, h2]
        · rw [if_pos h, hbt] at hu'
          rw [if_neg h2] at hv'
          cases hu'
          obtain ⟨l, hl, he⟩ := H.busy v r hv'
          exact absurd he (hnew l hl)
      · by_cases h2 : v = t
        · rw [if_neg h] at hu'
          rw [if_pos h2, hbt] at hv'
          cases hv'
          obtain ⟨l, hl, he⟩ := H.busy u r hu'
          exact absurd he (hnew l hl)
        · rw [if_neg h] at hu'
          rw [if_neg h2] at hv'
          exact H.inj u v p hu' hv'
    · have key : ∀ u v, u ≠ t → rawOf (k.pc u) = some v → v ≠ d.addr + 15 := by
        intro u v _ hu
        obtain ⟨e, he, g1, _⟩ := H.raw hu
        have := hnu e he
        omega
      intro u v p hu hv
      have hu' : rawOf (if u = t then KPc.allocUnlock b n (d.addr + 15) k.log.length else k.pc u) = some p := hu
      have hv' : rawOf (if v = t then KPc.allocUnlock b n (d.addr + 15) k.log.length else k.pc v) = some p := hv
      by_cases h : u = t
      · by_cases h2 : v = t
        · rw [h, h2]
        · rw [if_pos h, hrt] at hu'
          rw [if_neg h2] at hv'
          cases hu'
          exact absurd rfl (key v _ h2 hv')
      · by_cases h2 : v = t
        · rw [if_neg h] at hu'
          rw [if_pos h2, hrt] at hv'
          cases hv'
          exact absurd rfl (key u _ h hu')
        · rw [if_neg h] at hu'
          rw [if_neg h2] at hv'
          exact H.injR u v p hu' hv'
    · exact fun i q h => getElem?_append_some (H.ret i q h)
    · intro l hl x hx v hv
      obtain ⟨_, e, he, g1, g2, _⟩ := H.owned hl
      obtain ⟨x1, x2⟩ := hx
      have := H.data l hl x ⟨x1, x2⟩ v hv
      rw [← this]
      exact fk x (H.wf.user_quiet ⟨e, he, by omega, by omega⟩)

/-- A whole free from its locked part. -/
theorem free_of_locked {v : Nat} {c : Ck} {h1 : Heap} (W : A.WF pb) (I : ChainInv pb s A) (hc : A.Used c)
    (hsrc : s.c.hasSrc = false) (hv : c.addr + 15 = v)
    (e : freeLocked S { s with c := { s.c with lock := s.c.threadSafe } } v =
      .ok (({ s with c := { s.c with lock := s.c.threadSafe } } : CS σ).setHeap h1)) :
    chainFree S C s c.uptr = .ok (s.setHeap h1) := by
  obtain ⟨g1, g2, g3⟩ := getChunkUnpadded_used W I.mem hc
  have hu := W.uptr_ge c
  have g1' : getChunkUnpadded s.w.mem c.uptr = .ok (c.addr + 15) := g1
  have g2' : infoState s.w.mem (c.addr + 15) = SALLOC := g2
  subst hv
  unfold chainFree
  rw [if_neg (by simp [I.dead]), if_neg (by omega), g1', Outcome.ok_bind, if_neg (by omega)]
  rw [if_neg (by simp [g2'])]
  have hh : isHuge s.c (getSize s.w.mem (c.addr + 15)) = false := by simp [isHuge, hsrc]
  rw [hh, if_neg (by simp), lockIf_ok I.dead I.lock, Outcome.ok_bind, e, Outcome.ok_bind, unlockIf_ok I.dead I.lock]

/-- The locked part of a free. -/
theorem KInv.freeCrit (hf : C.reallocFactor ≠ 0) (h0 : Reach S C pb s0 L0 B0)
    (H : KInv S C pb B0 B s0 L0 k s rs Ls A) {t p v : Nat} (hpc : k.pc t = .freeCrit p v) (act : KAct) :
    ∃ k', kstep S C k t act = .ok k' ∧ ∃ s' rs' Ls' A', KInv S C pb B0 B s0 L0 k' s' rs' Ls' A' ∧ KKeeps k A A' := by
  have hlen := H.run.length
  have hbt : busyOf (k.pc t) = some p := by rw [hpc]; rfl
  have hrt : rawOf (k.pc t) = none := by rw [hpc]; rfl
  have hit : idxOf (k.pc t) = none := by rw [hpc]; rfl
  obtain ⟨c, hc, hcp, hcv⟩ : ∃ c, A.Used c ∧ c.uptr = p ∧ c.addr + 15 = v := by
    have := H.pcok t; rw [hpc] at this; exact this
  obtain ⟨c', l, hc', hcp', hnraw, hl, hlp, _⟩ := H.freeing hbt hrt
  have hcc : c' = c := H.wf.uptr_inj hc'.1 hc.1 (hcp'.trans hcp.symm)
  subst hcc
  clear hc' hcp'
  obtain ⟨A', R, ⟨hna, _⟩, hs⟩ := release_ok H.wf hc s.c.noMerge
  obtain ⟨hk, ek, Mk, fk⟩ := hs k.s.heap H.memK
  obtain ⟨h1, es, Ms, fs⟩ := hs s.heap H.inv.mem
  have Ik : ChainInv pb { k.s with c := { k.s.c with lock := false } } A := by
    refine ⟨H.pool, H.memK, ?_, rfl, ?_⟩
    · show k.s.c.dead = false
      rw [H.eqc]; exact H.inv.dead
    · show k.s.c.base ≠ 0 → ∃ g ∈ A.segs, g.base = k.s.c.base ∧ k.s.c.end_ = g.base + g.size
      rw [H.eqc]; exact H.inv.base
  have ek' : freeLocked S k.s v = .ok (k.s.setHeap hk) := by
    rw [← hcv]
    refine freeLocked_ok S H.pool H.noSrc (by rw [H.eqc]) ?_ ek
    split
    · rename_i h; exact base_getChunk (s := { k.s with c := { k.s.c with lock := false } }) H.wf Ik h
    · exact ⟨0, rfl⟩
  have es' : chainFree S C s c'.uptr = .ok (s.setHeap h1) := by
    refine free_of_locked H.wf H.inv hc H.src rfl ?_
    refine freeLocked_ok S (t := { s with c := { s.c with lock := s.c.threadSafe } }) H.inv.pool H.src rfl ?_ es
    split
    · rename_i h; exact base_getChunk (s := s) H.wf H.inv h
    · exact ⟨0, rfl⟩
  have e2 : exec S C s (.free p) = .ok (s.setHeap h1, 0) := by
    rw [exec_free, ← hcp, es']; rfl
  have hrun := H.run.snoc (op := .free p) (Or.inr ⟨l, hl, hlp⟩) trivial e2
  have hndL := H.nodup hf h0
  have hL : account Ls (.free p) 0 = Ls.filter (fun l => decide (l.ptr ≠ p)) := rfl
  rw [hL] at hrun
  refine ⟨_, by unfold kstep; rw [hpc]; simp only; rw [ek', Outcome.ok_bind]; rfl, s.setHeap h1,
      rs ++ [0], Ls.filter (fun l => decide (l.ptr ≠ p)), A', ?_, ?hkeep⟩
  case hkeep =>
    intro l' hl' e he hel
    refine (R.used e).2 ⟨he, ?_⟩
    rintro rfl
    exact ((H.live l').1 hl').2 t (by rw [hbt, ← hcp, hel])
  have hmemL : ∀ l', l' ∈ Ls.filter (fun l => decide (l.ptr ≠ p)) ↔ l' ∈ Ls ∧ l'.ptr ≠ p := by
    intro l'; rw [List.mem_filter]; simp
  have er : ∀ u, rawOf (if u = t then KPc.freeUnlock k.log.length else k.pc u) = rawOf (k.pc u) :=
    upd_of rawOf (by rw [hrt]; rfl)
  have eb : ∀ u q, busyOf (if u = t then KPc.freeUnlock k.log.length else k.pc u) = some q ↔
      busyOf (k.pc u) = some q ∧ u ≠ t := by
    intro u q
    split
    · rename_i h
      constructor
      · intro h; cases h
      · rintro ⟨_, h2⟩; exact absurd h h2
    · rename_i h
      exact ⟨fun g => ⟨g, h⟩, fun g => g.1⟩
  have ebp : ∀ u q, busyOf (if u = t then KPc.freeUnlock k.log.length else k.pc u) = some q → q ≠ p := by
    rintro u q hu rfl
    obtain ⟨g1, g2⟩ := (eb u q).1 hu
    exact g2 (H.inj _ _ _ g1 hbt)
  have hold : ∀ e l', Hold k.pc e l' → e ≠ c' → A.Used e →
      Hold (fun u => if u = t then KPc.freeUnlock k.log.length else k.pc u) e l' ∧ l'.ptr ≠ p := by
    intro e l' h hne heU
    rcases h with h | ⟨u, g1, g2⟩
    · refine ⟨Or.inl ⟨h.1, h.2.1, h.2.2.1, fun u => by rw [er u]; exact h.2.2.2 u⟩, ?_⟩
      intro hp
      exact hne (H.wf.uptr_inj heU.1 hc.1 (by rw [h.1, hp, hcp]))
    · have hut : u ≠ t := by rintro rfl; rw [hrt] at g1; cases g1
      refine ⟨Or.inr ⟨u, by simp only; rw [er u]; exact g1, (eb u _).2 ⟨g2, hut⟩⟩, ?_⟩
      intro hp
      rw [hp] at g2
      exact hut (H.inj _ _ _ g2 hbt)
  refine ⟨hrun, R.wf, Mk, H.inv.setHeap Ms R.shape, H.src, H.ts,
    R.shape.trans H.bufs, fun h => hna h (H.noAdj h), H.regs, H.based, H.eqw, ?_, ?_, ?_, ?_, ?_, ?_, ?_, ?_, ?_, ?_,
    ?_, ?_⟩
  · exact congrArg (fun c : Chain => { c with status := hk.status }) H.eqc
  · exact H.lock.same (by rw [hpc]; rfl)
  · intro u
    show PcOK _ _ _ _ _ (if u = t then KPc.freeUnlock k.log.length else k.pc u)
    split
    · show (rs ++ [0])[k.log.length]? = some 0
      rw [← hlen]; simp
    · rename_i hut
      refine (H.pcok u).mono H.wf (fun i r h => getElem?_append_some h) ?_ ?_ ?_
      · intro w hw e he hew
        have hne : e ≠ c' := by
          rintro rfl
          exact hnraw u (by rw [hew]; exact hw)
        refine ⟨(R.used e).2 ⟨he, hne⟩, fun x g1 g2 => ?_⟩
        obtain ⟨e', k1, k2, k3⟩ := H.raw hw
        have hee := H.wf.addr_inj k1.1 he.1 (by omega)
        subst hee
        refine fs x (H.wf.user_quiet ⟨e', he, by unfold Ck.uptr Ck.off; rw [k3]; exact g1, g2⟩) ?_
        have := H.wf.has_disj he.1 hc.1 hne
        omega
      · intro q hq _ e he heq
        refine (R.used e).2 ⟨he, ?_⟩
        rintro rfl
        have : q = p := heq.symm.trans hcp
        subst this
        exact hut (H.inj _ _ _ hq hbt)
      · intro l' hl' hq
        rw [hmemL]
        refine ⟨hl', ?_⟩
        intro hp
        rw [hp] at hq
        exact hut (H.inj _ _ _ hq hbt)
  · intro l' hl'
    obtain ⟨g1, g2⟩ := (hmemL l').1 hl'
    obtain ⟨e, he, h⟩ := H.used l' g1
    have hne : e ≠ c' := by
      rintro rfl
      rcases h with h | ⟨u, k1, _⟩
      · exact g2 (h.1.symm.trans hcp)
      · exact hnraw u k1
    exact ⟨e, (R.used e).2 ⟨he, hne⟩, (hold e l' h hne he).1⟩
  · intro e he
    obtain ⟨he, hne⟩ := (R.used e).1 he
    obtain ⟨l', hl', h⟩ := H.all e he
    obtain ⟨g1, g2⟩ := hold e l' h hne he
    exact ⟨l', (hmemL l').2 ⟨hl', g2⟩, g1⟩
  · intro l'
    show l' ∈ k.live ↔ _ ∧ ∀ u, busyOf (if u = t then KPc.freeUnlock k.log.length else k.pc u) ≠ some l'.ptr
    rw [H.live l', hmemL]
    constructor
    · rintro ⟨g1, g2⟩
      refine ⟨⟨g1, ?_⟩, fun u hu => g2 u ((eb u _).1 hu).1⟩
      intro hp
      exact g2 t (by rw [hp]; exact hbt)
    · rintro ⟨⟨g1, g2⟩, g3⟩
      refine ⟨g1, fun u hu => ?_⟩
      refine g3 u ((eb u _).2 ⟨hu, ?_⟩)
      rintro rfl
      rw [hbt] at hu
      simp at hu
      exact g2 hu.symm
  · intro u q hu
    obtain ⟨l', g1, g2⟩ := H.busy u q ((eb u q).1 hu).1
    exact ⟨l', (hmemL l').2 ⟨g1, by rw [g2]; exact ebp u q hu⟩, g2⟩
  · intro u w q hu hw
    exact H.inj u w q ((eb u q).1 hu).1 ((eb w q).1 hw).1
  · intro u w q hu hw
    refine H.injR u w q ?_ ?_
    · rw [← er u]; exact hu
    · rw [← er w]; exact hw
  · exact fun i q h => getElem?_append_some (H.ret i q h)
  · intro i hi
    have hi : i < (k.log ++ [Op.free p]).length := hi
    simp only [List.length_append, List.length_singleton] at hi
    by_cases hi2 : i = k.log.length
    · exact Or.inr ⟨t, (congrArg idxOf (if_pos rfl)).trans (by rw [hi2]; rfl)⟩
    · refine (H.pend i (by omega)).imp_right ?_
      rintro ⟨u, hu⟩
      refine ⟨u, (congrArg idxOf (if_neg ?_)).trans hu⟩
      rintro rfl; rw [hit] at hu; cases hu
  · intro l' hl' x hx w hw
    obtain ⟨g0, e, he, g1, g2, g3⟩ := H.owned hl'
    obtain ⟨x1, x2⟩ := hx
    have := H.data l' hl' x ⟨x1, x2⟩ w hw
    rw [← this]
    refine fk x (H.wf.user_quiet ⟨e, he, by omega, by omega⟩) ?_
    have hne : e ≠ c' := by
      rintro rfl
      exact ((H.live l').1 hl').2 t (by rw [hbt, ← hcp, g1])
    have := H.wf.has_disj he.1 hc.1 hne
    have := H.wf.uptr_ge e
    omega

theorem ptr_unique {L : List Block} (h : (L.map Block.ptr).Nodup) {l l' : Block} (hl : l ∈ L) (hl' : l' ∈ L)
    (e : l.ptr = l'.ptr) : l = l' := by
  induction L with
  | nil => cases hl
  | cons a L ih =>
    rw [List.map_cons, List.nodup_cons] at h
    rcases List.mem_cons.1 hl with rfl | g1
    · rcases List.mem_cons.1 hl' with rfl | g2
      · rfl
      · exact absurd (List.mem_map.2 ⟨l', g2, e.symm⟩) h.1
    · rcases List.mem_cons.1 hl' with rfl | g2
      · exact absurd (List.mem_map.2 ⟨l, g1, e⟩) h.1
      · exact ih h.2 g1 g2

/-! ### After the lock -/

/-- The padding after the unlock, and the return. -/
theorem KInv.pad (hf : C.reallocFactor ≠ 0) (h0 : Reach S C pb s0 L0 B0)
    (H : KInv S C pb B0 B s0 L0 k s rs Ls A) {t b n v i : Nat} (hpc : k.pc t = .allocPad b n v i) (act : KAct) :
    ∃ k', kstep S C k t act = .ok k' ∧ ∃ s' rs' Ls' A', KInv S C pb B0 B s0 L0 k' s' rs' Ls' A' ∧ KKeeps k A A' := by
  have hrt : rawOf (k.pc t) = if v = 0 then none else some v := by rw [hpc]; rfl
  have hbt : busyOf (k.pc t) = if v = 0 then none else some (retPtr v b) := by rw [hpc]; rfl
  have hit : idxOf (k.pc t) = some i := by rw [hpc]; rfl
  obtain ⟨hi, hd⟩ : rs[i]? = some (if v = 0 then 0 else retPtr v b) ∧
      (v ≠ 0 → ∃ d, A.Used d ∧ d.addr + 15 = v ∧ d.st = .used none ∧ GoodBound b ∧
        n + (if 1 < b then b else 0) + 16 ≤ d.size ∧ PadDone s.w.mem d b ∧
        (⟨retPtr v b, n, decide (b ≤ 1)⟩ : Block) ∈ Ls) := by
    have := H.pcok t; rw [hpc] at this; exact this
  have hret : ∀ q : Nat, rs[i]? = some q → ∀ j r, (if j = i then some q else k.ret j) = some r → rs[j]? = some r := by
    intro q hq j r h
    split at h
    · rename_i hj; cases h; rw [hj]; exact hq
    · exact H.ret j r h
  have hpend : ∀ q : Nat, ∀ j, j < k.log.length → (if j = i then some q else k.ret j) ≠ none ∨
      ∃ u, idxOf (if u = t then KPc.idle else k.pc u) = some j := by
    intro q j hj
    by_cases h : j = i
    · left; rw [if_pos h]; simp
    · rw [if_neg h]
      refine (H.pend j hj).imp_right ?_
      rintro ⟨u, hu⟩
      refine ⟨u, ?_⟩
      rw [if_neg]
      · exact hu
      · rintro rfl
        rw [hit] at hu
        cases hu
        exact h rfl
  by_cases hv : v = 0
  · subst hv
    rw [if_pos rfl] at hrt hbt hi
    refine ⟨(({ k with s := k.s }.give b n 0).return i 0).goto t .idle, by unfold kstep; rw [hpc]; rfl, s, rs, Ls, A, ?_, .same k A⟩
    have := H.moveLog (t := t) (P := .idle) (lk := k.s.c.lock) (log' := k.log)
      (ret' := fun j => if j = i then some 0 else k.ret j) (rs' := rs) (by rw [hbt]; rfl) (by rw [hrt]; rfl)
      trivial (H.lock.same (by rw [hpc]; rfl)) H.run (fun _ _ h => h) (hret 0 hi) (hpend 0)
    refine ⟨this.run, this.wf, this.memK, this.inv, this.src, this.ts, this.bufs, this.noAdj, this.regs, this.based,
      this.eqw, this.eqc, this.lock, this.pcok, this.used, this.all, this.live, this.busy, this.inj, this.injR, this.ret,
      this.pend, ?_⟩
    intro l hl x hx w hw
    have hw' : (if 0 ≠ 0 ∧ 0 ≤ x ∧ x < 0 + n then none else k.data x) = some w := hw
    split at hw'
    · cases hw'
    · exact H.data l hl x hx w hw'
  · rw [if_neg hv] at hrt hbt hi
    obtain ⟨d, hdU, hda, hst, hb, hds, hP, hlt⟩ := hd hv
    obtain ⟨d', A', R, hne, hp1, hp2⟩ := padReturn_both (σ := σ) (n := n) H.wf hdU hst hb hds
    obtain ⟨m, ek, Mk, _, fk⟩ := hp1 k.s H.memK
    have Ms := hp2 s.heap H.inv.mem hP
    have hr0 : d'.uptr = retPtr v b := by rw [R.ptr, ← hda]; rfl
    rw [hda, hr0] at ek
    rw [hr0] at hne
    have hnd := H.nodup hf h0
    have huniq : ∀ l ∈ Ls, l.ptr = retPtr v b → l = ⟨retPtr v b, n, decide (b ≤ 1)⟩ := by
      intro l hl he
      exact ptr_unique hnd hl hlt he
    generalize hr : retPtr v b = r at *
    have hnb : ∀ u, u ≠ t → busyOf (k.pc u) ≠ some r := fun u hu h => hu (H.inj _ _ _ h hbt)
    have er : ∀ u q, rawOf (if u = t then KPc.idle else k.pc u) = some q ↔ rawOf (k.pc u) = some q ∧ u ≠ t := by
      intro u q
      split
      · rename_i h
        exact ⟨fun g => absurd g (by simp [rawOf, busyOf]), fun g => absurd h g.2⟩
      · rename_i h
        exact ⟨fun g => ⟨g, h⟩, fun g => g.1⟩
    have eb : ∀ u q, busyOf (if u = t then KPc.idle else k.pc u) = some q ↔ busyOf (k.pc u) = some q ∧ u ≠ t := by
      intro u q
      split
      · rename_i h
        exact ⟨fun g => absurd g (by simp [rawOf, busyOf]), fun g => absurd h g.2⟩
      · rename_i h
        exact ⟨fun g => ⟨g, h⟩, fun g => g.1⟩
    have hd' : A'.Used d' := R.usedD
    have hnew : Hold (fun u => if u = t then KPc.idle else k.pc u) d' ⟨r, n, decide (b ≤ 1)⟩ := by
      refine Or.inl ⟨hr0, by rw [← hr0]; exact R.fit, fun h => R.noPad (of_decide_eq_true h), fun u hu => ?_⟩
      obtain ⟨g1, g2⟩ := (er u _).1 hu
      rw [R.addr, hda] at g1
      exact g2 (H.injR _ _ _ g1 hrt)
    have hold : ∀ e l', A.Used e → e ≠ d → Hold k.pc e l' →
        Hold (fun u => if u = t then KPc.idle else k.pc u) e l' := by
      intro e l' he hne' h
      rcases h with h | ⟨u, g1, g2⟩
      · exact Or.inl ⟨h.1, h.2.1, h.2.2.1, fun u hu => h.2.2.2 u ((er u _).1 hu).1⟩
      · have hut : u ≠ t := by
          rintro rfl
          rw [hrt] at g1
          simp at g1
          exact hne' (H.wf.addr_inj he.1 hdU.1 (by omega))
        exact Or.inr ⟨u, (er u _).2 ⟨g1, hut⟩, (eb u _).2 ⟨g2, hut⟩⟩
    have hrawd : ∀ l ∈ Ls, Hold k.pc d l → l = ⟨r, n, decide (b ≤ 1)⟩ := by
      intro l hl h
      rcases h with h | ⟨u, g1, g2⟩
      · exact absurd (by rw [hda]; exact hrt) (h.2.2.2 t)
      · rw [hda] at g1
        obtain rfl := H.injR _ _ _ g1 hrt
        rw [hbt] at g2
        simp at g2
        exact huniq l hl g2.symm
    refine ⟨(({ k with s := k.s.setMem m }.give b n r).return i r).goto t .idle,
      by unfold kstep; rw [hpc]; simp only; rw [if_neg hv, ek], s, rs, Ls, A', ?_, ?hkeep⟩
    case hkeep =>
      intro l' hl' e he hel
      refine (R.used e).2 (Or.inl ⟨he, ?_⟩)
      rintro rfl
      obtain ⟨_, c, hc, g1, _, g3⟩ := H.owned hl'
      have := H.wf.uptr_inj hc.1 he.1 (g1.trans hel.symm)
      subst this
      exact g3 t (by rw [hda]; exact hrt)
    refine ⟨H.run, R.wf, Mk, ⟨H.inv.pool, Ms, H.inv.dead, H.inv.lock, (H.inv.setHeap Ms R.shape).base⟩, H.src, H.ts,
      R.shape.trans H.bufs, fun h => R.noAdj (H.noAdj h), H.regs, H.based, H.eqw, H.eqc, ?_, ?_, ?_, ?_, ?_, ?_, ?_, ?_,
      hret r hi, hpend r, ?_⟩
    · exact H.lock.same (by rw [hpc]; rfl)
    · intro u
      show PcOK _ _ _ _ _ (if u = t then KPc.idle else k.pc u)
      split
      · trivial
      · rename_i hut
        refine (H.pcok u).mono H.wf (fun _ _ h => h) ?_ ?_ (fun _ h _ => h)
        · intro w hw e he hew
          refine ⟨(R.used e).2 (Or.inl ⟨he, ?_⟩), fun _ _ _ => rfl⟩
          rintro rfl
          rw [← hew, hda] at hw
          exact hut (H.injR _ _ _ hw hrt)
        · intro q hq hqr e he heq
          refine (R.used e).2 (Or.inl ⟨he, ?_⟩)
          rintro rfl
          obtain ⟨c, l, hc, g1, g2, _⟩ := H.freeing hq hqr
          have := H.wf.uptr_inj hc.1 he.1 (g1.trans heq.symm)
          subst this
          exact g2 t (by rw [hda]; exact hrt)
    · intro l hl
      obtain ⟨e, he, h⟩ := H.used l hl
      by_cases hed : e = d
      · subst hed
        rw [hrawd l hl h]
        exact ⟨d', hd', hnew⟩
      · exact ⟨e, (R.used e).2 (Or.inl ⟨he, hed⟩), hold e l he hed h⟩
    · intro e he
      rcases (R.used e).1 he with ⟨he, hed⟩ | rfl
      · obtain ⟨l, hl, h⟩ := H.all e he
        exact ⟨l, hl, hold e l he hed h⟩
      · exact ⟨_, hlt, hnew⟩
    · intro l
      show l ∈ account k.live (.alloc b n) r ↔ l ∈ Ls ∧ ∀ u, busyOf (if u = t then KPc.idle else k.pc u) ≠ some l.ptr
      simp only [account, if_neg hne, List.mem_cons]
      rw [H.live l]
      constructor
      · rintro (rfl | ⟨g1, g2⟩)
        · exact ⟨hlt, fun u hu => hnb u ((eb u _).1 hu).2 ((eb u _).1 hu).1⟩
        · exact ⟨g1, fun u hu => g2 u ((eb u _).1 hu).1⟩
      · rintro ⟨g1, g2⟩
        by_cases h : l.ptr = r
        · exact Or.inl (huniq l g1 h)
        · refine Or.inr ⟨g1, fun u hu => ?_⟩
          refine g2 u ((eb u _).2 ⟨hu, ?_⟩)
          rintro rfl
          rw [hbt] at hu
          simp at hu
          exact h hu.symm
    · intro u q hu
      exact H.busy u q ((eb u q).1 hu).1
    · intro u w q hu hw
      exact H.inj u w q ((eb u q).1 hu).1 ((eb w q).1 hw).1
    · intro u w q hu hw
      exact H.injR u w q ((er u q).1 hu).1 ((er w q).1 hw).1
    · intro l hl x hx w hw
      have hw' : (if r ≠ 0 ∧ r ≤ x ∧ x < r + n then none else k.data x) = some w := hw
      have hl' : l ∈ account k.live (.alloc b n) r := hl
      simp only [account, if_neg hne, List.mem_cons] at hl'
      split at hw'
      · cases hw'
      · rename_i hout
        rcases hl' with rfl | hl'
        · exact absurd ⟨hne, hx⟩ hout
        · obtain ⟨_, e, he, g1, g2, g3⟩ := H.owned hl'
          rw [← H.data l hl' x hx w hw']
          refine fk x ?_
          have hed : e ≠ d := by
            rintro rfl
            exact g3 t (by rw [hda]; exact hrt)
          have := H.wf.has_disj he.1 hdU.1 hed
          have := H.wf.uptr_ge e
          obtain ⟨x1, x2⟩ := hx
          omega

/-- The reads of a free before the lock. -/
theorem KInv.freeRead (H : KInv S C pb B0 B s0 L0 k s rs Ls A) {t p : Nat} (hpc : k.pc t = .freeRead p) (act : KAct) :
    ∃ k', kstep S C k t act = .ok k' ∧ KInv S C pb B0 B s0 L0 k' s rs Ls A := by
  have hbt : busyOf (k.pc t) = some p := by rw [hpc]; rfl
  have hrt : rawOf (k.pc t) = none := by rw [hpc]; rfl
  obtain ⟨c, l, hc, hcp, _⟩ := H.freeing hbt hrt
  obtain ⟨g1, g2, _⟩ := getChunkUnpadded_used H.wf H.memK hc
  have g1' : getChunkUnpadded k.s.w.mem p = .ok (c.addr + 15) := by rw [← hcp]; exact g1
  have g2' : infoState k.s.w.mem (c.addr + 15) = SALLOC := g2
  refine ⟨k.goto t (.freeSwap p (c.addr + 15)), ?_, ?_⟩
  · unfold kstep
    rw [hpc]
    simp only
    rw [g1', Outcome.ok_bind, if_neg (by omega), if_neg (by simp [g2'])]
    rfl
  · exact H.move (lk := k.s.c.lock) (by rw [hbt]; rfl) (by rw [hrt]; rfl) (by rw [hpc]; rfl) ⟨c, hc, hcp, rfl⟩
      (H.lock.same (by rw [hpc]; rfl))

/-- The end of a free. -/
theorem KInv.freeUnlock (H : KInv S C pb B0 B s0 L0 k s rs Ls A) {t i : Nat} (hpc : k.pc t = .freeUnlock i) (act : KAct) :
    ∃ k', kstep S C k t act = .ok k' ∧ KInv S C pb B0 B s0 L0 k' s rs Ls A := by
  have hi : rs[i]? = some 0 := by have := H.pcok t; rw [hpc] at this; exact this
  refine ⟨_, by unfold kstep; rw [hpc], ?_⟩
  refine H.moveLog (t := t) (P := .idle) (lk := false) (log' := k.log)
    (ret' := fun j => if j = i then some 0 else k.ret j) (by rw [hpc]; rfl) (by rw [hpc]; rfl) trivial
    (H.lock.drop (by rw [hpc]; rfl) rfl) H.run (fun _ _ h => h) ?_ ?_
  · intro j r h
    split at h
    · rename_i hj; cases h; rw [hj]; exact hi
    · exact H.ret j r h
  · intro j hj
    by_cases h : j = i
    · left; rw [if_pos h]; simp
    · rw [if_neg h]
      refine (H.pend j hj).imp_right ?_
      rintro ⟨u, hu⟩
      refine ⟨u, ?_⟩
      rw [if_neg]
      · exact hu
      · rintro rfl
        rw [hpc] at hu
        cases hu
        exact h rfl

/-- Every step of the client's threads succeeds and keeps the invariant. -/
theorem KInv.step (hf : C.reallocFactor ≠ 0) (h0 : Reach S C pb s0 L0 B0)
    (H : KInv S C pb B0 B s0 L0 k s rs Ls A) {t : Nat} {act : KAct} (hv : k.pc t = .idle → KValid B k act) :
    ∃ k', kstep S C k t act = .ok k' ∧ ∃ s' rs' Ls' A', KInv S C pb B0 B s0 L0 k' s' rs' Ls' A' ∧ KKeeps k A A' := by
  cases hpc : k.pc t with
  | idle =>
    have hv := hv hpc
    cases act with
    | alloc b n =>
      by_cases hn : n = 0
      · subst hn
        refine ⟨k.now (.alloc b 0), by unfold kstep; rw [hpc]; rfl, s, _, Ls, A, H.now (t := t) rfl hv trivial ?_ rfl rfl, .same k A⟩
        show allocAlign S s b 0 = _
        unfold allocAlign
        rw [if_neg (by simp [H.inv.dead]), if_pos rfl]
      · refine ⟨k.goto t (.allocSwap b n), by unfold kstep kstart; rw [hpc]; simp only; rw [if_neg hn], s, rs, Ls, A, ?_, .same k A⟩
        exact H.move (lk := k.s.c.lock) (by rw [hpc]; rfl) (by rw [hpc]; rfl) (by rw [hpc]; rfl) ⟨hv.1, hv.2, hn⟩
          (H.lock.same (by rw [hpc]; rfl))
    | free p =>
      by_cases hp : p = 0
      · subst hp
        refine ⟨k.now (.free 0), by unfold kstep; rw [hpc]; rfl, s, _, Ls, A,
          H.now (t := t) rfl (Or.inl rfl) trivial ?_ ?_ rfl, .same k A⟩
        · rw [exec_free, free_null S C s H.inv.dead]; rfl
        · simp only [account]
          apply List.filter_eq_self.2
          intro l hl
          have : l.ptr ≠ 0 := by
            obtain ⟨A2, H2⟩ := reach_inv hf (h0.run H.run)
            obtain ⟨c, hc, h1, _⟩ := H2.live.used l hl
            have := H2.wf.uptr_ge c
            omega
          simp [this]
      · obtain ⟨l, hl, rfl⟩ := hv.resolve_left hp
        exact ⟨_, by unfold kstep kstart; rw [hpc]; simp only; rw [if_neg hp], s, rs, Ls, A, H.startFree hpc hl, .same k A⟩
    | write a v =>
      obtain ⟨l, hl, ha⟩ := hv
      exact ⟨_, by unfold kstep kstart; rw [hpc], _, _, Ls, A, H.write hl ha, .same k A⟩
  | allocSwap b n =>
    have hp := H.pcok t
    rw [hpc] at hp
    refine ⟨_, by unfold kstep; rw [hpc], s, rs, Ls, A, ?_, .same k A⟩
    cases hlk : k.s.c.lock with
    | true =>
      have hl := H.lock
      rw [hlk] at hl
      exact H.move (by rw [hpc]; rfl) (by rw [hpc]; rfl) (by rw [hpc]; rfl) hp (hl.same (by rw [hpc]; rfl))
    | false =>
      have hl := H.lock
      rw [hlk] at hl
      exact H.move (by rw [hpc]; rfl) (by rw [hpc]; rfl) (by rw [hpc]; rfl) hp (hl.take rfl)
  | allocLoad b n =>
    have hp := H.pcok t
    rw [hpc] at hp
    refine ⟨_, by unfold kstep; rw [hpc], s, rs, Ls, A, ?_, .same k A⟩
    refine H.move (lk := k.s.c.lock) ?_ ?_ ?_ ?_ (H.lock.same ?_)
    · rw [hpc]; split <;> rfl
    · rw [hpc]; split <;> rfl
    · rw [hpc]; split <;> rfl
    · split <;> exact hp
    · rw [hpc]; split <;> rfl
  | allocCrit b n => exact H.allocCrit hf h0 hpc act
  | allocUnlock b n v i =>
    have hp := H.pcok t
    rw [hpc] at hp
    refine ⟨_, by unfold kstep; rw [hpc], s, rs, Ls, A, ?_, .same k A⟩
    exact H.move (by rw [hpc]; rfl) (by rw [hpc]; rfl) (by rw [hpc]; rfl) hp (H.lock.drop (by rw [hpc]; rfl) rfl)
  | allocPad b n v i => exact H.pad hf h0 hpc act
  | freeRead p =>
    obtain ⟨k', h1, h2⟩ := H.freeRead hpc act
    exact ⟨k', h1, s, rs, Ls, A, h2, .same k A⟩
  | freeSwap p v =>
    have hp := H.pcok t
    rw [hpc] at hp
    refine ⟨_, by unfold kstep; rw [hpc], s, rs, Ls, A, ?_, .same k A⟩
    cases hlk : k.s.c.lock with
    | true =>
      have hl := H.lock
      rw [hlk] at hl
      exact H.move (by rw [hpc]; rfl) (by rw [hpc]; rfl) (by rw [hpc]; rfl) hp (hl.same (by rw [hpc]; rfl))
    | false =>
      have hl := H.lock
      rw [hlk] at hl
      exact H.move (by rw [hpc]; rfl) (by rw [hpc]; rfl) (by rw [hpc]; rfl) hp (hl.take rfl)
  | freeLoad p v =>
    have hp := H.pcok t
    rw [hpc] at hp
    refine ⟨_, by unfold kstep; rw [hpc], s, rs, Ls, A, ?_, .same k A⟩
    refine H.move (lk := k.s.c.lock) ?_ ?_ ?_ ?_ (H.lock.same ?_)
    · rw [hpc]; split <;> rfl
    · rw [hpc]; split <;> rfl
    · rw [hpc]; split <;> rfl
    · split <;> exact hp
    · rw [hpc]; split <;> rfl
  | freeCrit p v => exact H.freeCrit hf h0 hpc act
  | freeUnlock i =>
    obtain ⟨k', h1, h2⟩ := H.freeUnlock hpc act
    exact ⟨k', h1, s, rs, Ls, A, h2, .same k A⟩

theorem kinit_inv (hf : C.reallocFactor ≠ 0) (h0 : Reach S C pb s0 L0 B) (hts : s0.c.threadSafe = true) :
    ∃ A, KInv S C pb B B s0 L0 ⟨s0, fun _ => .idle, L0, [], fun _ => none, fun _ => none⟩ s0 [] L0 A := by
  obtain ⟨A, H⟩ := reach_inv hf h0
  refine ⟨A, .nil, H.wf, H.inv.mem, H.inv, H.src, hts, H.bufs, H.noAdj, H.regs, H.based, ⟨H.regs, rfl⟩, rfl, ?_, fun _ => trivial,
    ?_, ?_, ?_, ?_, ?_, ?_, ?_, ?_, ?_⟩
  · show LockOK s0.c.lock _
    rw [H.inv.lock]
    exact ⟨⟨fun h => absurd h (by simp), fun ⟨t, h⟩ => absurd h (by simp [holdsOf])⟩, fun t u h => absurd h (by simp [holdsOf])⟩
  · intro l hl
    obtain ⟨c, h1, h2, h3, h4⟩ := H.live.used l hl
    exact ⟨c, h1, Or.inl ⟨h2, h3, h4, fun t => by simp [rawOf]⟩⟩
  · intro c hc
    obtain ⟨l, hl, he⟩ := H.live.all c hc
    obtain ⟨c', h1, h2, h3, h4⟩ := H.live.used l hl
    have := H.wf.uptr_inj h1.1 hc.1 (h2.trans he)
    subst this
    exact ⟨l, hl, Or.inl ⟨h2, h3, h4, fun t => by simp [rawOf]⟩⟩
  · intro l
    exact ⟨fun h => ⟨h, fun t => by simp [busyOf]⟩, fun h => h.1⟩
  · intro t p h; cases h
  · intro t u p h; cases h
  · intro t u p h; cases h
  · intro i r h; cases h
  · intro i h; simp at h
  · intro l _ x _ v h; cases h

/-- The invariant holds in every state that the threads reach. -/
theorem kreach_inv (hf : C.reallocFactor ≠ 0) (h0 : Reach S C pb s0 L0 B) (hts : s0.c.threadSafe = true)
    (h : KReach S C B s0 L0 k) : ∃ s rs Ls A, KInv S C pb B B s0 L0 k s rs Ls A := by
  induction h with
  | init =>
    obtain ⟨A, H⟩ := kinit_inv hf h0 hts
    exact ⟨_, _, _, A, H⟩
  | step _ hv e ih =>
    obtain ⟨s, rs, Ls, A, H⟩ := ih
    obtain ⟨k', e', s', rs', Ls', A', H', _⟩ := H.step hf h0 hv
    rw [e] at e'
    cases e'
    exact ⟨s', rs', Ls', A', H'⟩

end MpcAlloc

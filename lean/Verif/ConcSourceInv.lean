import Verif.ConcSourceLemmas

/-
Invariant of the threads of ConcSource.lean, and proof that the steps keep it.
-/

namespace MpcAlloc
namespace OnNode

/-- Who owns a chunk: the client with the block at `p`, or thread `t` in a call, for the block that it obtains or for the
one that it frees. -/
inductive Slot where
  | blk (p : Nat)
  | new (t : Nat)
  | old (t : Nat)
deriving DecidableEq

/-- The chunks with an owner. -/
abbrev Own := Slot → Option Ck

def Own.set (H : Own) (i : Slot) (o : Option Ck) : Own := fun j => if j = i then o else H j

theorem Own.set_eq (H : Own) (i : Slot) (o : Option Ck) : H.set i o i = o := if_pos rfl

theorem Own.set_ne (H : Own) {i j : Slot} (o : Option Ck) (h : j ≠ i) : H.set i o j = H j := if_neg h

/-- The bytes of the block have the values that clients stored. -/
def Holds (m : Mem) (data : Nat → Option UInt8) (l : Blk) : Prop := ∀ x v, l.Byte x → data x = some v → m x = v

/-- The chunk serves the block. -/
structure BlkOK (c : Ck) (l : Blk) : Prop where
  ptr : c.uptr = l.ptr
  fit : l.ptr + l.len ≤ c.addr + c.size
  align : 1 < l.bound → l.bound ∣ l.ptr
  align16 : l.bound ≤ 1 → 16 ∣ l.ptr
  noPad : l.bound ≤ 1 → c.st = .used none

/-- A request that is served; with `cl`, not just below the huge limit. -/
def ReqOK (cl : Prop) (b n : Nat) : Prop := GoodBound b ∧ n ≠ 0 ∧ PSize (reqSize b n) ∧ (cl → CleanSize (reqSize b n))

/-- The block that a realloc is going to return. -/
def RetOK (m : Mem) (data : Nat → Option UInt8) (o : Option Ck) : Option Blk → Prop
  | none => o = none
  | some d => ∃ c, o = some c ∧ BlkOK c d ∧ Holds m data d

/-- The block that a realloc moves. -/
def ContOK (m : Mem) (data : Nat → Option UInt8) (o : Option Ck) (n : Nat) : Cont → Prop
  | .ret => o = none
  | .move l old => ∃ c, o = some c ∧ BlkOK c l ∧ Holds m data l ∧ old = c.size - 16 ∧ (l.bound ≤ 1 ∨ n ≤ l.len)

/-- A new chunk without padded header. -/
def RawOK (o : Option Ck) (b n v : Nat) : Prop :=
  ∃ c, o = some c ∧ c.st = .used none ∧ v = c.addr + 15 ∧ n + (if 1 < b then b else 0) + 16 ≤ c.size

/-- A chunk to free. -/
def OldOK (o : Option Ck) (p : Nat) : Prop := ∃ c, o = some c ∧ c.uptr = p

def JobOK (cl : Prop) (m : Mem) (data : Nat → Option UInt8) (o1 o2 : Option Ck) : Job → Prop
  | .alloc b n q => o1 = none ∧ ReqOK cl b n ∧ calcChunkSize (reqSize b n) ≤ 1048576 ∧ ContOK m data o2 n q
  | .free p v r => (∃ c, o2 = some c ∧ c.uptr = p ∧ v = c.addr + 15 ∧ calcChunkSize c.size ≤ 1048576) ∧ RetOK m data o1 r

/-- What holds at each position of a thread; `o1` is the chunk of its new block, `o2` that of the old one. -/
def PcOK (cl : Prop) (m : Mem) (data : Nat → Option UInt8) (o1 o2 : Option Ck) : Pc → Prop
  | .idle => o1 = none ∧ o2 = none
  | .swap j => JobOK cl m data o1 o2 j
  | .load j => JobOK cl m data o1 o2 j
  | .crit j => JobOK cl m data o1 o2 j
  | .unlockA b n v q => RawOK o1 b n v ∧ ReqOK cl b n ∧ ContOK m data o2 n q
  | .hugeReq b n q => o1 = none ∧ ReqOK cl b n ∧ 1048576 < calcChunkSize (reqSize b n) ∧ ContOK m data o2 n q
  | .hugeLoad b n v q => RawOK o1 b n v ∧ ReqOK cl b n ∧ ContOK m data o2 n q
  | .hugeStore b n v _ q => RawOK o1 b n v ∧ ReqOK cl b n ∧ ContOK m data o2 n q
  | .pad b n v q => RawOK o1 b n v ∧ ReqOK cl b n ∧ ContOK m data o2 n q
  | .copy l old d => (∃ c, o1 = some c ∧ BlkOK c d) ∧ ContOK m data o2 d.len (.move l old)
  | .freeRead p r => OldOK o2 p ∧ RetOK m data o1 r
  | .unlockF r => o2 = none ∧ RetOK m data o1 r
  | .hugeFree p v r => (∃ c, o2 = some c ∧ c.uptr = p ∧ v = c.addr + 15 ∧ 1048576 < calcChunkSize c.size) ∧
      RetOK m data o1 r
  | .cntLoad r => o2 = none ∧ RetOK m data o1 r
  | .cntStore _ r => o2 = none ∧ RetOK m data o1 r
  | .resize b n l => o1 = none ∧ ReqOK cl b n ∧ ∃ c, o2 = some c ∧ BlkOK c l ∧ Holds m data l ∧ (l.bound ≤ 1 ∨ n ≤ l.len)

/-- Memory and stored values are the same in the block of the chunk. -/
def Same (m m' : Mem) (data data' : Nat → Option UInt8) (c : Ck) : Prop :=
  ∀ x, c.uptr ≤ x → x < c.addr + c.size → m' x = m x ∧ data' x = data x

theorem Holds.congr {m m' : Mem} {data data' : Nat → Option UInt8} {c : Ck} {l : Blk} (h : Holds m data l) (hb : BlkOK c l)
    (hs : Same m m' data data' c) : Holds m' data' l := by
  intro x v hx hv
  have h1 := hb.ptr
  have h2 := hb.fit
  unfold Blk.Byte at hx
  obtain ⟨h3, h4⟩ := hs x (by omega) (by omega)
  rw [h3]
  exact h x v hx (by rw [← h4]; exact hv)

theorem RetOK.congr {m m' : Mem} {data data' : Nat → Option UInt8} {o : Option Ck} {r : Option Blk}
    (h : RetOK m data o r) (hs : ∀ c, o = some c → Same m m' data data' c) : RetOK m' data' o r := by
  cases r with
  | none => exact h
  | some d =>
    obtain ⟨c, h1, h2, h3⟩ := h
    exact ⟨c, h1, h2, h3.congr h2 (hs c h1)⟩

theorem ContOK.congr {m m' : Mem} {data data' : Nat → Option UInt8} {o : Option Ck} {n : Nat} {q : Cont}
    (h : ContOK m data o n q) (hs : ∀ c, o = some c → Same m m' data data' c) : ContOK m' data' o n q := by
  cases q with
  | ret => exact h
  | move l old =>
    obtain ⟨c, h1, h2, h3, h4⟩ := h
    exact ⟨c, h1, h2, h3.congr h2 (hs c h1), h4⟩

theorem JobOK.congr {cl : Prop} {m m' : Mem} {data data' : Nat → Option UInt8} {o1 o2 : Option Ck} {j : Job}
    (h : JobOK cl m data o1 o2 j) (hs : ∀ c, o1 = some c ∨ o2 = some c → Same m m' data data' c) : JobOK cl m' data' o1 o2 j := by
  cases j with
  | alloc b n q => exact ⟨h.1, h.2.1, h.2.2.1, h.2.2.2.congr (fun c hc => hs c (Or.inr hc))⟩
  | free p v r => exact ⟨h.1, h.2.congr (fun c hc => hs c (Or.inl hc))⟩

theorem PcOK.congr {cl : Prop} {m m' : Mem} {data data' : Nat → Option UInt8} {o1 o2 : Option Ck} {p : Pc}
    (h : PcOK cl m data o1 o2 p) (hs : ∀ c, o1 = some c ∨ o2 = some c → Same m m' data data' c) : PcOK cl m' data' o1 o2 p := by
  have h1 : ∀ c, o1 = some c → Same m m' data data' c := fun c hc => hs c (Or.inl hc)
  have h2 : ∀ c, o2 = some c → Same m m' data data' c := fun c hc => hs c (Or.inr hc)
  cases p with
  | idle => exact h
  | swap j => exact JobOK.congr h hs
  | load j => exact JobOK.congr h hs
  | crit j => exact JobOK.congr h hs
  | unlockA b n v q => exact ⟨h.1, h.2.1, h.2.2.congr h2⟩
  | hugeReq b n q => exact ⟨h.1, h.2.1, h.2.2.1, h.2.2.2.congr h2⟩
  | hugeLoad b n v q => exact ⟨h.1, h.2.1, h.2.2.congr h2⟩
  | hugeStore b n v x q => exact ⟨h.1, h.2.1, h.2.2.congr h2⟩
  | pad b n v q => exact ⟨h.1, h.2.1, h.2.2.congr h2⟩
  | copy l old d => exact ⟨h.1, h.2.congr h2⟩
  | freeRead p r => exact ⟨h.1, h.2.congr h1⟩
  | unlockF r => exact ⟨h.1, h.2.congr h1⟩
  | hugeFree p v r => exact ⟨h.1, h.2.congr h1⟩
  | cntLoad r => exact ⟨h.1, h.2.congr h1⟩
  | cntStore x r => exact ⟨h.1, h.2.congr h1⟩
  | resize b n l =>
    obtain ⟨a1, a2, c, a3, a4, a5, a6⟩ := h
    exact ⟨a1, a2, c, a3, a4, a5.congr a4 (h2 c a3), a6⟩

/-- The invariant. `u` is the state of the chain with the right counter and the lock free. -/
structure KInv (cl : Prop) (addr pb : Nat) (P : Res) (k : KS Light) (u : CS Light) (A : AHeap) (L : List (Nat × Nat)) (H : Own)
    (d : Int) : Prop where
  st : k.s = adj k.s.c.lock d u
  inv : SInv pb u A [] L P
  flags : u.c.threadSafe = true ∧ u.c.noMerge = false ∧ u.c.addr = addr
  used : ∀ i c, H i = some c → A.Used c
  inj : ∀ i j c, H i = some c → H j = some c → i = j
  live : ∀ l ∈ k.live, ∃ c, H (.blk l.ptr) = some c ∧ BlkOK c l ∧ Holds u.w.mem k.data l
  dist : k.live.Pairwise (fun l l' => l.ptr ≠ l'.ptr)
  pcs : ∀ t, PcOK cl u.w.mem k.data (H (.new t)) (H (.old t)) (k.pc t)
  back : ∀ p c, H (.blk p) = some c → ∃ l ∈ k.live, l.ptr = p
  /-- no chunk is lost -/
  clean : cl → A.Busy ∧ ∀ c, A.Used c → ¬ Leak c ∧ ∃ i, H i = some c

/-- Another position of thread `t`. -/
def pcSet (f : Nat → Pc) (t : Nat) (p : Pc) : Nat → Pc := fun v => if v = t then p else f v

/-- A step of `t` that changes neither the heap nor the owners. -/
theorem KInv.stay {cl : Prop} {addr pb : Nat} {P : Res} {k k' : KS Light} {u : CS Light} {A : AHeap} {L : List (Nat × Nat)} {H : Own}
    {d d' : Int} {t : Nat} {p : Pc} (I : KInv cl addr pb P k u A L H d) (hs : k'.s = adj k'.s.c.lock d' u)
    (hl : k'.live = k.live) (hd : k'.data = k.data) (hpc : k'.pc = pcSet k.pc t p)
    (hp : PcOK cl u.w.mem k.data (H (.new t)) (H (.old t)) p) : KInv cl addr pb P k' u A L H d' := by
  refine ⟨hs, I.inv, I.flags, I.used, I.inj, ?_, by rw [hl]; exact I.dist, ?_, by rw [hl]; exact I.back, I.clean⟩
  · rw [hl, hd]; exact I.live
  · intro t'
    rw [hpc, hd]
    unfold pcSet
    split
    · rename_i h; rw [h]; exact hp
    · exact I.pcs t'

/-- A step of `t` on the chunk of slot `i`, which is of `t`. -/
theorem KInv.upd {cl : Prop} {addr pb : Nat} {P : Res} {k k' : KS Light} {u u' : CS Light} {A A' : AHeap} {L L' : List (Nat × Nat)}
    {H : Own} {d d' : Int} {t : Nat} {p : Pc} {i : Slot} {o : Option Ck} {X : Ck → Prop} (I : KInv cl addr pb P k u A L H d)
    (hi : i = .new t ∨ i = .old t) (S : SStep pb u A [] L P X u' A' L')
    (hX : ∀ j c, j ≠ i → H j = some c → X c)
    (ho : ∀ c, o = some c → A'.Used c ∧ ∀ j, j ≠ i → H j ≠ some c)
    (hs : k'.s = adj k'.s.c.lock d' u') (hl : k'.live = k.live)
    (hd : ∀ j c, j ≠ i → H j = some c → ∀ x, c.uptr ≤ x → x < c.addr + c.size → k'.data x = k.data x)
    (hpc : k'.pc = pcSet k.pc t p)
    (hp : PcOK cl u'.w.mem k'.data (H.set i o (.new t)) (H.set i o (.old t)) p)
    (hB : cl → A.Busy → A'.Busy)
    (hC : cl → ∀ c, A'.Used c → (o = some c ∧ ¬ Leak c) ∨ (A.Used c ∧ H i ≠ some c)) :
    KInv cl addr pb P k' u' A' L' (H.set i o) d' := by
  have hsame : ∀ j c, j ≠ i → H j = some c → Same u.w.mem u'.w.mem k.data k'.data c := by
    intro j c hj hc x h1 h2
    exact ⟨S.frame x (Or.inr (Or.inr ⟨c, I.used j c hc, hX j c hj hc, h1, h2⟩)), hd j c hj hc x h1 h2⟩
  have hother : ∀ j, j ≠ i → H.set i o j = H j := fun j hj => H.set_ne o hj
  refine ⟨hs, S.inv, ⟨S.flag.1.trans I.flags.1, S.flag.2.trans I.flags.2.1, S.addr.trans I.flags.2.2⟩, ?_, ?_, ?_,
    by rw [hl]; exact I.dist, ?_, ?_, ?_⟩
  · intro j c hc
    by_cases hj : j = i
    · rw [hj, H.set_eq] at hc; exact (ho c hc).1
    · rw [hother j hj] at hc; exact S.keep c (I.used j c hc) (hX j c hj hc)
  · intro j j' c hc hc'
    by_cases hj : j = i <;> by_cases hj' : j' = i
    · rw [hj, hj']
    · rw [hj, H.set_eq] at hc; rw [hother j' hj'] at hc'; exact absurd hc' ((ho c hc).2 j' hj')
    · rw [hj', H.set_eq] at hc'; rw [hother j hj] at hc; exact absurd hc ((ho c hc').2 j hj)
    · rw [hother j hj] at hc; rw [hother j' hj'] at hc'; exact I.inj j j' c hc hc'
  · rw [hl]
    intro l hlm
    obtain ⟨c, h1, h2, h3⟩ := I.live l hlm
    have hne : Slot.blk l.ptr ≠ i := by rcases hi with h | h <;> rw [h] <;> exact fun h => by cases h
    exact ⟨c, by rw [hother _ hne]; exact h1, h2, h3.congr h2 (hsame _ c hne h1)⟩
  · intro t'
    rw [hpc]
    unfold pcSet
    by_cases ht : t' = t
    · rw [if_pos ht, ht]; exact hp
    · rw [if_neg ht]
      have n1 : Slot.new t' ≠ i := by
        rcases hi with h | h <;> rw [h]
        · exact fun h => ht (by injection h)
        · exact fun h => by cases h
      have n2 : Slot.old t' ≠ i := by
        rcases hi with h | h <;> rw [h]
        · exact fun h => by cases h
        · exact fun h => ht (by injection h)
      rw [hother _ n1, hother _ n2]
      refine (I.pcs t').congr (fun c hc => ?_)
      rcases hc with hc | hc
      · exact hsame _ c n1 hc
      · exact hsame _ c n2 hc
  · intro q c hc
    have hne : Slot.blk q ≠ i := by rcases hi with h | h <;> rw [h] <;> exact fun h => by cases h
    rw [hother _ hne] at hc
    rw [hl]
    exact I.back q c hc
  · intro hcl
    obtain ⟨c1, c2⟩ := I.clean hcl
    refine ⟨hB hcl c1, fun c hc => ?_⟩
    rcases hC hcl c hc with ⟨h1, h2⟩ | ⟨h1, h2⟩
    · exact ⟨h2, i, by rw [H.set_eq]; exact h1⟩
    · obtain ⟨h3, j, h4⟩ := c2 c h1
      refine ⟨h3, j, ?_⟩
      rw [hother j (fun h => h2 (by rw [← h]; exact h4))]
      exact h4

/-- A chunk goes from slot `i` to slot `j`. -/
def Own.move (H : Own) (i j : Slot) : Own := (H.set i none).set j (H i)

theorem Own.move_to (H : Own) (i j : Slot) : H.move i j j = H i := Own.set_eq _ _ _

theorem Own.move_from (H : Own) {i j : Slot} (h : i ≠ j) : H.move i j i = none := by
  unfold Own.move; rw [Own.set_ne _ _ h, Own.set_eq]

theorem Own.move_ne (H : Own) {i j x : Slot} (h1 : x ≠ i) (h2 : x ≠ j) : H.move i j x = H x := by
  unfold Own.move; rw [Own.set_ne _ _ h2, Own.set_ne _ _ h1]

theorem Own.move_some {H : Own} {i j x : Slot} {c : Ck} (h : H.move i j x = some c) :
    (x = j ∧ H i = some c) ∨ (x ≠ i ∧ x ≠ j ∧ H x = some c) := by
  by_cases hj : x = j
  · rw [hj, Own.move_to] at h; exact Or.inl ⟨hj, h⟩
  · by_cases hi : x = i
    · rw [hi] at h hj
      rw [Own.move_from H hj] at h; cases h
    · rw [Own.move_ne H hi hj] at h; exact Or.inr ⟨hi, hj, h⟩

theorem KInv.move_used {cl : Prop} {addr pb : Nat} {P : Res} {k : KS Light} {u : CS Light} {A : AHeap} {L : List (Nat × Nat)} {H : Own}
    {d : Int} (I : KInv cl addr pb P k u A L H d) (i j : Slot) : ∀ x c, H.move i j x = some c → A.Used c := by
  intro x c h
  rcases Own.move_some h with ⟨_, h⟩ | ⟨_, _, h⟩ <;> exact I.used _ _ h

theorem KInv.move_inj {cl : Prop} {addr pb : Nat} {P : Res} {k : KS Light} {u : CS Light} {A : AHeap} {L : List (Nat × Nat)} {H : Own}
    {d : Int} (I : KInv cl addr pb P k u A L H d) (i j : Slot) :
    ∀ x y c, H.move i j x = some c → H.move i j y = some c → x = y := by
  intro x y c hx hy
  rcases Own.move_some hx with ⟨h1, h2⟩ | ⟨h1, h2, h3⟩ <;> rcases Own.move_some hy with ⟨g1, g2⟩ | ⟨g1, g2, g3⟩
  · rw [h1, g1]
  · exact absurd (I.inj _ _ _ g3 h2) g1
  · exact absurd (I.inj _ _ _ h3 g2) h1
  · exact I.inj _ _ _ h3 g3

theorem KInv.move_clean {cl : Prop} {addr pb : Nat} {P : Res} {k : KS Light} {u : CS Light} {A : AHeap} {L : List (Nat × Nat)}
    {H : Own} {d : Int} (I : KInv cl addr pb P k u A L H d) {i j : Slot} (hj : H j = none) :
    cl → A.Busy ∧ ∀ c, A.Used c → ¬ Leak c ∧ ∃ x, H.move i j x = some c := by
  intro hcl
  obtain ⟨c1, c2⟩ := I.clean hcl
  refine ⟨c1, fun c hc => ?_⟩
  obtain ⟨h1, x, h2⟩ := c2 c hc
  refine ⟨h1, ?_⟩
  by_cases hxi : x = i
  · exact ⟨j, by rw [Own.move_to, ← hxi]; exact h2⟩
  · exact ⟨x, by rw [Own.move_ne H hxi (fun h => by rw [h, hj] at h2; cases h2)]; exact h2⟩

/-- Pointers of chunks with different owners differ. -/
theorem KInv.ptr_ne {cl : Prop} {addr pb : Nat} {P : Res} {k : KS Light} {u : CS Light} {A : AHeap} {L : List (Nat × Nat)} {H : Own}
    {d : Int} (I : KInv cl addr pb P k u A L H d) {i j : Slot} {c c' : Ck} (hi : H i = some c) (hj : H j = some c')
    (hne : i ≠ j) : c.addr + c.size ≤ c'.addr ∨ c'.addr + c'.size ≤ c.addr := by
  have h : c ≠ c' := by rintro rfl; exact hne (I.inj _ _ _ hi hj)
  exact I.inv.ch.wf.has_disj (I.used _ _ hi).1 (I.used _ _ hj).1 h

/-- The client gets the block. -/
theorem KInv.ret {cl : Prop} {addr pb : Nat} {P : Res} {k k' : KS Light} {u : CS Light} {A : AHeap} {L : List (Nat × Nat)} {H : Own}
    {d d' : Int} {t : Nat} {r : Option Blk} (I : KInv cl addr pb P k u A L H d) (h2 : H (.old t) = none)
    (hr : RetOK u.w.mem k.data (H (.new t)) r) (hs : k'.s = adj k'.s.c.lock d' u)
    (hl : k'.live = (k.give r).live) (hd : k'.data = k.data) (hpc : k'.pc = pcSet k.pc t .idle) :
    ∃ H', KInv cl addr pb P k' u A L H' d' := by
  cases r with
  | none => exact ⟨H, I.stay hs hl hd hpc ⟨hr, h2⟩⟩
  | some b =>
    obtain ⟨c, hc, hb, hh⟩ := hr
    have hW := I.inv.ch.wf
    have hptr : ∀ l ∈ k.live, l.ptr ≠ b.ptr := by
      intro l hl heq
      obtain ⟨c', h1, h3, _⟩ := I.live l hl
      have h4 := I.ptr_ne hc h1 (fun h => by cases h)
      have h5 := hb.ptr
      have h6 := h3.ptr
      have h7 := I.inv.ch.room c (I.used _ _ hc)
      have h8 := I.inv.ch.room c' (I.used _ _ h1)
      have h9 := hW.uptr_ge c
      have h10 := hW.uptr_ge c'
      omega
    have hfree : H (.blk b.ptr) = none := by
      cases hx : H (.blk b.ptr) with
      | none => rfl
      | some c' => obtain ⟨l, h1, h3⟩ := I.back _ _ hx; exact absurd h3 (hptr l h1)
    refine ⟨H.move (.new t) (.blk b.ptr), hs, I.inv, I.flags, I.move_used _ _, I.move_inj _ _, ?_, ?_, ?_, ?_,
      I.move_clean hfree⟩
    · rw [hl, hd]
      intro l hlm
      rcases List.mem_cons.1 hlm with rfl | hlm
      · exact ⟨c, by rw [Own.move_to]; exact hc, hb, hh⟩
      · obtain ⟨c', h1, h3⟩ := I.live l hlm
        refine ⟨c', ?_, h3⟩
        rw [Own.move_ne H (fun h => by cases h) (fun h => hptr l hlm (by injection h))]
        exact h1
    · rw [hl]
      exact List.pairwise_cons.2 ⟨fun l hlm => (hptr l hlm).symm, I.dist⟩
    · intro t'
      rw [hpc, hd]
      unfold pcSet
      by_cases ht : t' = t
      · rw [if_pos ht, ht, Own.move_from H (fun h => by cases h), Own.move_ne H (fun h => by cases h) (fun h => by cases h)]
        exact ⟨rfl, h2⟩
      · rw [if_neg ht, Own.move_ne H (fun h => ht (by injection h)) (fun h => by cases h),
          Own.move_ne H (fun h => by cases h) (fun h => by cases h)]
        exact I.pcs t'
    · intro q c' hc'
      rw [hl]
      rcases Own.move_some hc' with ⟨h1, _⟩ | ⟨_, _, h3⟩
      · injection h1 with h1
        exact ⟨b, List.mem_cons_self, h1.symm⟩
      · obtain ⟨l, h4, h5⟩ := I.back q c' h3
        exact ⟨l, List.mem_cons_of_mem _ h4, h5⟩

/-- A client gives a block to a call. -/
theorem KInv.took {cl : Prop} {addr pb : Nat} {P : Res} {k k' : KS Light} {u : CS Light} {A : AHeap} {L : List (Nat × Nat)} {H : Own}
    {d d' : Int} {t : Nat} {p : Pc} {l : Blk} (I : KInv cl addr pb P k u A L H d) (hl : l ∈ k.live)
    (hs : k'.s = adj k'.s.c.lock d' u) (hlv : k'.live = (k.take l.ptr).live) (hd : k'.data = k.data)
    (hpc : k'.pc = pcSet k.pc t p) (hno : H (.old t) = none)
    (hp : ∀ c, BlkOK c l → Holds u.w.mem k.data l → PcOK cl u.w.mem k.data (H (.new t)) (some c) p) :
    ∃ H', KInv cl addr pb P k' u A L H' d' := by
  obtain ⟨c, hc, hb, hh⟩ := I.live l hl
  refine ⟨H.move (.blk l.ptr) (.old t), hs, I.inv, I.flags, I.move_used _ _, I.move_inj _ _, ?_, ?_, ?_, ?_,
    I.move_clean hno⟩
  · rw [hlv, hd]
    intro l' hl'
    obtain ⟨h1, h2⟩ := List.mem_filter.1 hl'
    obtain ⟨c', h3, h4⟩ := I.live l' h1
    refine ⟨c', ?_, h4⟩
    rw [Own.move_ne H (fun h => by injection h with h; simp [h] at h2) (fun h => by cases h)]
    exact h3
  · rw [hlv]
    exact I.dist.filter _
  · intro t'
    rw [hpc, hd]
    unfold pcSet
    by_cases ht : t' = t
    · rw [if_pos ht, ht, Own.move_to, Own.move_ne H (fun h => by cases h) (fun h => by cases h), hc]
      exact hp c hb hh
    · rw [if_neg ht, Own.move_ne H (fun h => by cases h) (fun h => by cases h),
        Own.move_ne H (fun h => by cases h) (fun h => ht (by injection h))]
      exact I.pcs t'
  · intro q c' hc'
    rw [hlv]
    rcases Own.move_some hc' with ⟨h1, _⟩ | ⟨h1, _, h3⟩
    · cases h1
    · obtain ⟨l', h4, h5⟩ := I.back q c' h3
      exact ⟨l', List.mem_filter.2 ⟨h4, by simp only [decide_eq_true_eq]; rintro h; exact h1 (by rw [← h5, h])⟩, h5⟩

theorem KInv.mem {cl : Prop} {addr pb : Nat} {P : Res} {k : KS Light} {u : CS Light} {A : AHeap} {L : List (Nat × Nat)} {H : Own}
    {d : Int} (I : KInv cl addr pb P k u A L H d) : k.s.w = u.w := by rw [I.st]; rfl

theorem KInv.huge {cl : Prop} {addr pb : Nat} {P : Res} {k : KS Light} {u : CS Light} {A : AHeap} {L : List (Nat × Nat)} {H : Own}
    {d : Int} (I : KInv cl addr pb P k u A L H d) (N : Nat) : isHuge k.s.c N = decide (1048576 < calcChunkSize N) := by
  have h : k.s.c.hasSrc = true := by rw [I.st]; exact I.inv.ch.src
  unfold isHuge
  rw [h, Bool.true_and]

theorem KInv.handler {cl : Prop} {addr pb : Nat} {P : Res} {k : KS Light} {u : CS Light} {A : AHeap} {L : List (Nat × Nat)} {H : Own}
    {d : Int} (I : KInv cl addr pb P k u A L H d) : k.s.c.handler = false := by
  rw [I.st]; exact I.inv.ch.handler.1

theorem withBound_eq {cl : Prop} {b n : Nat} (h : ReqOK cl b n) : withBound b n = reqSize b n := by
  obtain ⟨_, h1, h2, _⟩ := h
  have h3 := h2.1
  unfold reqSize at h3
  unfold withBound reqSize
  rw [if_neg h1] at h3 ⊢
  by_cases hb : b > 1
  · rw [if_pos hb, if_pos hb, add64_eq (by rw [if_pos hb] at h3; omega)]
  · rw [if_neg hb, if_neg hb]; rfl

theorem reqSize_nz {cl : Prop} {b n : Nat} (h : ReqOK cl b n) : reqSize b n ≠ 0 ∧ reqSize b n = n + (if 1 < b then b else 0) := by
  unfold reqSize
  rw [if_neg h.2.1]
  have := h.2.1
  constructor
  · omega
  · rfl

/-- Beginning of an allocation. -/
theorem KInv.enter {cl : Prop} {addr pb : Nat} {P : Res} {k : KS Light} {u : CS Light} {A : AHeap} {L : List (Nat × Nat)} {H : Own}
    {d : Int} {t b n : Nat} {q : Cont} (I : KInv cl addr pb P k u A L H d) (h1 : H (.new t) = none) (hr : ReqOK cl b n)
    (hq : ContOK u.w.mem k.data (H (.old t)) n q) : KInv cl addr pb P (k.enter t b n q) u A L H d := by
  have hw := withBound_eq hr
  unfold KS.enter
  rw [I.huge, hw]
  by_cases hh : 1048576 < calcChunkSize (reqSize b n)
  · rw [if_pos (by simpa using hh)]
    exact I.stay I.st rfl rfl rfl ⟨h1, hr, hh, hq⟩
  · rw [if_neg (by simpa using hh)]
    exact I.stay I.st rfl rfl rfl ⟨h1, hr, by omega, hq⟩

theorem SStep.same {pb : Nat} {u u' : CS Light} {A A' : AHeap} {L L' : List (Nat × Nat)} {P : Res} {X : Ck → Prop}
    (S : SStep pb u A [] L P X u' A' L') {c : Ck} (hc : A.Used c) (hX : X c) (data : Nat → Option UInt8) :
    Same u.w.mem u'.w.mem data data c :=
  fun x h1 h2 => ⟨S.frame x (Or.inr (Or.inr ⟨c, hc, hX, h1, h2⟩)), rfl⟩

/-- The chunk to free, in slot `old t`, is gone. -/
theorem KInv.freed {cl : Prop} {addr pb : Nat} {P : Res} {k k' : KS Light} {u u' : CS Light} {A A' : AHeap} {L L' : List (Nat × Nat)}
    {H : Own} {d d' : Int} {t : Nat} {p : Pc} {c : Ck} {r : Option Blk} (I : KInv cl addr pb P k u A L H d)
    (hc : H (.old t) = some c) (S : SStep pb u A [] L P (fun j => j ≠ c) u' A' L')
    (hr : RetOK u.w.mem k.data (H (.new t)) r)
    (hs : k'.s = adj k'.s.c.lock d' u') (hl : k'.live = k.live) (hd : k'.data = k.data)
    (hpc : k'.pc = pcSet k.pc t p)
    (hp : ∀ m o, RetOK m k.data o r → PcOK cl m k.data o none p)
    (hB : cl → A.Busy → A'.Busy) (hC : cl → ¬ Leak c → ∀ e, A'.Used e → A.Used e ∧ e ≠ c) :
    KInv cl addr pb P k' u' A' L' (H.set (.old t) none) d' := by
  have hX : ∀ j e, j ≠ .old t → H j = some e → e ≠ c := by
    rintro j e hj he rfl
    exact hj (I.inj _ _ _ he hc)
  refine I.upd (Or.inr rfl) S hX (fun _ h => by cases h) hs hl (fun _ _ _ _ _ _ _ => by rw [hd]) hpc ?_ hB
    (fun hcl e he => ?_)
  case refine_2 =>
    obtain ⟨h1, h2⟩ := hC hcl ((I.clean hcl).2 c (I.used _ _ hc)).1 e he
    exact Or.inr ⟨h1, fun h => h2 (by rw [hc] at h; exact (Option.some.inj h).symm)⟩
  rw [H.set_eq, H.set_ne _ (fun h => by cases h), hd]
  refine hp _ _ (hr.congr (fun e he => ?_))
  exact SStep.same S (I.used _ _ he) (hX _ e (fun h => by cases h) he) _

/-- The end of a call that gives the block `r`. -/
theorem KInv.done {cl : Prop} {addr pb : Nat} {P : Res} {k k' : KS Light} {u : CS Light} {A : AHeap} {L : List (Nat × Nat)} {H : Own}
    {d : Int} {t : Nat} {r : Option Blk} (I : KInv cl addr pb P k u A L H d) (hp : k.pc t = .unlockF r)
    (hs : k'.s = adj k'.s.c.lock d u) (hl : k'.live = (k.give r).live) (hd : k'.data = k.data)
    (hpc : k'.pc = pcSet k.pc t .idle) : ∃ H', KInv cl addr pb P k' u A L H' d := by
  have h := I.pcs t
  rw [hp] at h
  exact I.ret h.1 h.2 hs hl hd hpc

theorem pcSet_eq (f : Nat → Pc) (t : Nat) (p : Pc) : pcSet f t p t = p := if_pos rfl

theorem pcSet_set (f : Nat → Pc) (t : Nat) (p p' : Pc) : pcSet (pcSet f t p) t p' = pcSet f t p' := by
  funext v
  unfold pcSet
  split <;> rfl

theorem KS.give_live {k k' : KS Light} (h : k'.live = k.live) (r : Option Blk) : (k'.give r).live = (k.give r).live := by
  cases r with
  | none => exact h
  | some d => show d :: k'.live = d :: k.live; rw [h]

theorem KS.give_s (k : KS Light) (r : Option Blk) : (k.give r).s = k.s ∧ (k.give r).data = k.data ∧ (k.give r).pc = k.pc := by
  cases r <;> exact ⟨rfl, rfl, rfl⟩

/-- A new block is returned. -/
theorem KInv.newBlock {cl : Prop} {addr pb : Nat} {P : Res} {k k' : KS Light} {u u' : CS Light} {A A' : AHeap} {L L' : List (Nat × Nat)}
    {H : Own} {d : Int} {t : Nat} {c e : Ck} {l : Blk} {X : Ck → Prop} (I : KInv cl addr pb P k u A L H d)
    (hc : H (.new t) = some c) (he1 : e.addr = c.addr) (he2 : e.size = c.size)
    (S : SStep pb u A [] L P X u' A' L') (hX : ∀ j c, j ≠ .new t → H j = some c → X c) (hU : A'.Used e) (hb : BlkOK e l)
    (hno : H (.old t) = none) (hs : k'.s = adj k'.s.c.lock d u') (hl : k'.live = l :: k.live)
    (hd : ∀ x, (x < c.addr ∨ c.addr + c.size ≤ x) → k'.data x = k.data x) (hh : Holds u'.w.mem k'.data l)
    (hpc : k'.pc = pcSet k.pc t .idle) (hB : cl → A.Busy → A'.Busy)
    (hC : ∀ f, A'.Used f → f = e ∨ (A.Used f ∧ f ≠ c)) : ∃ H', KInv cl addr pb P k' u' A' L' H' d := by
  have hW := I.inv.ch.wf
  have hdis : ∀ j f, j ≠ .new t → H j = some f → f.addr + f.size ≤ c.addr ∨ c.addr + c.size ≤ f.addr :=
    fun j f hj hf => I.ptr_ne hf hc hj
  have I1 : KInv cl addr pb P { k' with live := k.live, pc := pcSet k.pc t (.unlockF (some l)) } u' A' L' (H.set (.new t) (some e)) d := by
    refine I.upd (p := .unlockF (some l)) (Or.inl rfl) S hX ?_ hs rfl ?_ rfl ?_ hB ?_
    · intro f hf
      injection hf with hf
      subst hf
      refine ⟨hU, fun j hj hjf => ?_⟩
      have h1 := hdis j e hj hjf
      have h2 := (hW.has_wf (I.used _ _ hc).1).ge
      omega
    · intro j f hj hf x h1 h2
      have h3 := hdis j f hj hf
      have h4 := hW.uptr_ge f
      exact hd x (by omega)
    · exact ⟨by rw [H.set_ne _ (fun h => by cases h)]; exact hno, e, H.set_eq _ _, hb, hh⟩
    · intro hcl f hf
      have hnl : ¬ Leak e := by
        have := ((I.clean hcl).2 c (I.used _ _ hc)).1
        unfold Leak at this ⊢
        rw [he2]; exact this
      rcases hC f hf with rfl | ⟨h1, h2⟩
      · exact Or.inl ⟨rfl, hnl⟩
      · exact Or.inr ⟨h1, fun h => h2 (by rw [hc] at h; exact (Option.some.inj h).symm)⟩
  exact I1.done (k' := k') (pcSet_eq _ _ _) hs hl rfl (by rw [hpc]; exact (pcSet_set _ _ _ _).symm)

/-- The old block of a realloc is the new one. -/
theorem KInv.shift {cl : Prop} {addr pb : Nat} {P : Res} {k : KS Light} {u : CS Light} {A : AHeap} {L : List (Nat × Nat)}
    {H : Own} {d : Int} {t : Nat} {p : Pc} (I : KInv cl addr pb P k u A L H d)
    (hno : H (.new t) = none) (hp : PcOK cl u.w.mem k.data (H (.old t)) none p) :
    KInv cl addr pb P { k with pc := pcSet k.pc t p } u A L (H.move (.old t) (.new t)) d := by
  refine ⟨I.st, I.inv, I.flags, I.move_used _ _, I.move_inj _ _, ?_, I.dist, ?_, ?_, I.move_clean hno⟩
  · intro l hl
    rw [Own.move_ne H (fun h => by cases h) (fun h => by cases h)]
    exact I.live l hl
  · intro t'
    show PcOK cl _ _ _ _ (pcSet k.pc t p t')
    unfold pcSet
    by_cases ht : t' = t
    · rw [if_pos ht, ht, Own.move_to, Own.move_from H (fun h => by cases h)]; exact hp
    · rw [if_neg ht, Own.move_ne H (fun h => by cases h) (fun h => ht (by injection h)),
        Own.move_ne H (fun h => ht (by injection h)) (fun h => by cases h)]
      exact I.pcs t'
  · intro q c hc
    rcases Own.move_some hc with ⟨h1, _⟩ | ⟨_, _, h3⟩
    · cases h1
    · exact I.back q c h3

/-- A store of a client. -/
theorem KInv.write {cl : Prop} {addr pb : Nat} {P : Res} {k : KS Light} {u : CS Light} {A : AHeap} {L : List (Nat × Nat)}
    {H : Own} {d : Int} {l : Blk} {a : Nat} {v : UInt8} (I : KInv cl addr pb P k u A L H d) (hl : l ∈ k.live) (ha : l.Byte a) :
    ∃ u', KInv cl addr pb P { k with s := k.s.setMem (fun x => if x = a then v else k.s.w.mem x),
                                     data := fun x => if x = a then some v else k.data x } u' A L H d := by
  obtain ⟨c, hc, hb, hh⟩ := I.live l hl
  have hW := I.inv.ch.wf
  unfold Blk.Byte at ha
  have h1 := hb.ptr
  have h2 := hb.fit
  have S : SStep pb u A [] L P (fun j => j ≠ c) (u.setMem (fun x => if x = a then v else u.w.mem x)) A L :=
    I.inv.store (I.used _ _ hc) (fun x hx => if_neg (by omega))
  have hne : ∀ j f, j ≠ .blk l.ptr → H j = some f → f ≠ c := by
    rintro j f hj hf rfl
    exact hj (I.inj _ _ _ hf hc)
  have hsame : ∀ j f, j ≠ .blk l.ptr → H j = some f → Same u.w.mem (fun x => if x = a then v else u.w.mem x) k.data
      (fun x => if x = a then some v else k.data x) f := by
    intro j f hj hf x h3 h4
    have h5 := I.ptr_ne hf hc hj
    have h6 := hW.uptr_ge f
    have h7 := hW.uptr_ge c
    exact ⟨if_neg (by omega), if_neg (by omega)⟩
  have hHolds : ∀ l', Holds u.w.mem k.data l' → Holds (fun x => if x = a then v else u.w.mem x)
      (fun x => if x = a then some v else k.data x) l' := by
    intro l' h x w hx hw
    simp only at hw ⊢
    by_cases hxa : x = a
    · rw [if_pos hxa] at hw ⊢; injection hw
    · rw [if_neg hxa] at hw ⊢; exact h x w hx hw
  refine ⟨u.setMem (fun x => if x = a then v else u.w.mem x), ?_, S.inv, I.flags, I.used, I.inj, ?_, I.dist, ?_, I.back, I.clean⟩
  · show k.s.setMem _ = adj k.s.c.lock d (u.setMem _)
    rw [← adj_setMem, ← I.st, I.mem]
  · intro l' hl'
    obtain ⟨c', g1, g2, g3⟩ := I.live l' hl'
    exact ⟨c', g1, g2, hHolds l' g3⟩
  · intro t
    refine (I.pcs t).congr (fun f hf => ?_)
    rcases hf with hf | hf
    · exact hsame _ f (fun h => by cases h) hf
    · exact hsame _ f (fun h => by cases h) hf

end OnNode
end MpcAlloc

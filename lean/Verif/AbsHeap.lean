import Verif.FreeListLemmas

/-
Abstract heap: segments made of chunks, and the content of the free lists. `WF` is the purely
abstract well-formedness, `MemOK` says that a memory represents the abstract heap.
These are specification-side definitions (no C counterpart).
-/

namespace MpcAlloc

/-- State of a chunk: free, used (with the distance of a pad header from the chunk body, if any), or
the end mark of a segment. -/
inductive CkSt where
  | free
  | used (pad : Option Nat)
  | stop
deriving DecidableEq, Repr

/-- A chunk: its header address, its size in bytes (header included), its state. -/
structure Ck where
  addr : Nat
  size : Nat
  st : CkSt
deriving DecidableEq, Repr

/-- A segment (buffer or macro bloc): 32 bytes of macro bloc header, chunks, 16 bytes end mark. -/
structure Seg where
  base : Nat
  size : Nat
  chunks : List Ck
deriving DecidableEq, Repr

/-- Abstract heap: segments and free lists. -/
structure AHeap where
  segs : List Seg
  fl : Nat → List Ck

/-- Replacement of one free list. -/
def updFl (fl : Nat → List Ck) (i : Nat) (l : List Ck) : Nat → List Ck :=
  fun k => if k = i then l else fl k

@[simp] theorem updFl_same (fl : Nat → List Ck) (i : Nat) (l : List Ck) : updFl fl i l i = l := by
  simp [updFl]
theorem updFl_ne (fl : Nat → List Ck) {i k : Nat} (l : List Ck) (h : k ≠ i) : updFl fl i l k = fl k := by
  simp [updFl, h]

/-- The chunks lie one after the other from `a` to `e`. -/
def Tiles : Nat → List Ck → Nat → Prop
  | a, [], e => a = e
  | a, c :: l, e => c.addr = a ∧ Tiles (a + c.size) l e

/-- End mark of a segment. -/
def Seg.stop (s : Seg) : Ck := ⟨s.base + s.size - 16, 16, .stop⟩
/-- Chunks followed by the end mark. -/
def Seg.ext (s : Seg) : List Ck := s.chunks ++ [s.stop]

/-- Distance from the chunk address to the pointer given to the user. -/
def Ck.off (c : Ck) : Nat := match c.st with
  | .used (some p) => 24 + p
  | _ => 16
/-- Pointer given to the user. -/
def Ck.uptr (c : Ck) : Nat := c.addr + c.off

/-- Well-formed chunk. -/
structure Ck.WF (c : Ck) : Prop where
  dvd : 16 ∣ c.size
  ge : 32 ≤ c.size
  off : c.off ≤ c.size
  nstop : c.st ≠ .stop

/-- Well-formed segment. -/
structure Seg.WF (s : Seg) : Prop where
  pos : 0 < s.base
  dvdB : 16 ∣ s.base
  dvdS : 16 ∣ s.size
  ge : 96 ≤ s.size
  lt : s.base + s.size < W64
  lt56 : s.size < W56
  tiles : Tiles (s.base + 32) s.chunks (s.base + s.size - 16)
  chunks : ∀ c ∈ s.chunks, c.WF

/-- A chunk of the heap. -/
def AHeap.Has (A : AHeap) (c : Ck) : Prop := ∃ s ∈ A.segs, c ∈ s.chunks

/-- Well-formed abstract heap, for a pool whose list heads are at `pb`. -/
structure AHeap.WF (pb : Nat) (A : AHeap) : Prop where
  seg : ∀ s ∈ A.segs, s.WF
  disj : A.segs.Pairwise (fun s t => s.base + s.size ≤ t.base ∨ t.base + t.size ≤ s.base)
  pool : ∀ s ∈ A.segs, s.base + s.size ≤ pb ∨ pb + 1536 ≤ s.base
  pbpos : 0 < pb
  pblt : pb + 1536 < W64
  flFree : ∀ i c, c ∈ A.fl i → c.st = .free
  flHas : ∀ i c, c ∈ A.fl i → A.Has c
  flClass : ∀ i c, c ∈ A.fl i → IsStoreClass c.size i
  flAll : ∀ c, A.Has c → c.st = .free → ∃ i, c ∈ A.fl i
  flNodup : ∀ i, (A.fl i).Nodup

/-! ### Memory representation -/

/-- Number stored in the state bit. -/
def CkSt.num : CkSt → Nat
  | .free => 0
  | _ => 1
theorem CkSt.num_lt (s : CkSt) : s.num < 2 := by cases s <;> simp [CkSt.num]

/-- Size stored in the header (0 for the end mark). -/
def Ck.hdrSize (c : Ck) : Nat := match c.st with | .stop => 0 | _ => c.size

/-- Header (and pad header) of one chunk, `prev` being the expected previous size. -/
structure CkMem (m : Mem) (prev : Nat) (c : Ck) : Prop where
  hdr : HdrAt m c.addr c.hdrSize prev c.st.num
  pad : ∀ p, c.st = .used (some p) → PadAt m (c.addr + 16 + p) p

/-- Headers of consecutive chunks. -/
def ChunksMem (m : Mem) : Nat → List Ck → Prop
  | _, [] => True
  | prev, c :: l => CkMem m prev c ∧ ChunksMem m c.size l

/-- Size of the last chunk of a list (or `p`). -/
def lastSz (p : Nat) : List Ck → Nat
  | [] => p
  | c :: l => lastSz c.size l

/-- Headers of a whole segment. -/
structure SegMem (m : Mem) (s : Seg) : Prop where
  size : hSize m s.base = s.size
  info : (m (s.base + 15)).toNat = 133
  chunks : ChunksMem m 0 s.ext

/-- The heap state represents the abstract heap. -/
structure MemOK (P : Pool) (h : Heap) (A : AHeap) : Prop where
  segs : ∀ s ∈ A.segs, SegMem h.mem s
  lists : ∀ i, i < 48 → Links h.mem (P.head i) ((A.fl i).map Ck.addr) (P.head i)
  status : ∀ i, i < 48 → (h.status i = true ↔ A.fl i ≠ [])

/-! ### Lists of chunks -/

theorem tiles_append {a e : Nat} {l1 l2 : List Ck} :
    Tiles a (l1 ++ l2) e ↔ ∃ b, Tiles a l1 b ∧ Tiles b l2 e := by
  induction l1 generalizing a with
  | nil => simp [Tiles]
  | cons c l ih => simp only [List.cons_append, Tiles, ih]; grind

theorem tiles_le {a e : Nat} {l : List Ck} (h : Tiles a l e) : a ≤ e := by
  induction l generalizing a with
  | nil => exact Nat.le_of_eq h
  | cons c l ih => have := ih h.2; omega

theorem tiles_mem {a e : Nat} {l : List Ck} (h : Tiles a l e) {c : Ck} (hc : c ∈ l) :
    a ≤ c.addr ∧ c.addr + c.size ≤ e := by
  obtain ⟨l1, l2, rfl⟩ := List.append_of_mem hc
  obtain ⟨b, h1, h2⟩ := tiles_append.1 h
  have := tiles_le h1
  have := tiles_le h2.2
  have := h2.1
  omega

theorem tiles_mid {a e : Nat} {l1 l2 : List Ck} {c : Ck} (h : Tiles a (l1 ++ c :: l2) e) :
    Tiles a l1 c.addr ∧ Tiles (c.addr + c.size) l2 e := by
  obtain ⟨b, h1, h2⟩ := tiles_append.1 h
  obtain ⟨rfl, h3⟩ := h2
  exact ⟨h1, h3⟩

theorem tiles_replace {a e : Nat} {l1 l2 l2' l3 : List Ck} (h : Tiles a (l1 ++ l2 ++ l3) e)
    (h' : ∀ x y, Tiles x l2 y → Tiles x l2' y) : Tiles a (l1 ++ l2' ++ l3) e := by
  obtain ⟨b, h1, h2⟩ := tiles_append.1 h
  obtain ⟨d, h3, h4⟩ := tiles_append.1 h1
  exact tiles_append.2 ⟨b, tiles_append.2 ⟨d, h3, h' _ _ h4⟩, h2⟩

theorem tiles_disj {a e : Nat} {l : List Ck} (h : Tiles a l e) (hs : ∀ c ∈ l, 0 < c.size)
    {c d : Ck} (hc : c ∈ l) (hd : d ∈ l) (hne : c ≠ d) :
    c.addr + c.size ≤ d.addr ∨ d.addr + d.size ≤ c.addr := by
  obtain ⟨l1, l2, rfl⟩ := List.append_of_mem hc
  have ⟨h1, h2⟩ := tiles_mid h
  rcases List.mem_append.1 hd with hd | hd
  · right; exact (tiles_mem h1 hd).2
  · rcases List.mem_cons.1 hd with rfl | hd
    · exact absurd rfl hne
    · left; exact (tiles_mem h2 hd).1

theorem chunksMem_append {m : Mem} {p : Nat} {l1 l2 : List Ck} :
    ChunksMem m p (l1 ++ l2) ↔ ChunksMem m p l1 ∧ ChunksMem m (lastSz p l1) l2 := by
  induction l1 generalizing p with
  | nil => simp [ChunksMem, lastSz]
  | cons c l ih => simp [ChunksMem, lastSz, ih, and_assoc]

theorem lastSz_append (p : Nat) (l : List Ck) (c : Ck) : lastSz p (l ++ [c]) = c.size := by
  induction l generalizing p with
  | nil => rfl
  | cons d l ih => exact ih d.size

theorem chunksMem_mid {m : Mem} {p : Nat} {l1 l2 : List Ck} {c : Ck} :
    ChunksMem m p (l1 ++ c :: l2) ↔
      ChunksMem m p l1 ∧ CkMem m (lastSz p l1) c ∧ ChunksMem m c.size l2 := by
  rw [chunksMem_append]; rfl

/-- Bytes of a chunk that the allocator relies on: header and pad header. -/
def CkAgree (m m' : Mem) (c : Ck) : Prop :=
  AgreeOn m m' c.addr 7 ∧ AgreeOn m m' (c.addr + 8) 8 ∧
  ∀ p, c.st = .used (some p) → AgreeOn m m' (c.addr + 16 + p) 8

theorem CkMem.congr {m m' : Mem} {p : Nat} {c : Ck} (h : CkMem m p c) (a : CkAgree m m' c) :
    CkMem m' p c :=
  ⟨h.hdr.congr a.1 a.2.1, fun q hq => (h.pad q hq).congr (a.2.2 q hq)⟩

theorem ChunksMem.congr {m m' : Mem} {p : Nat} {l : List Ck} (h : ChunksMem m p l)
    (a : ∀ c ∈ l, CkAgree m m' c) : ChunksMem m' p l := by
  induction l generalizing p with
  | nil => trivial
  | cons c l ih =>
    exact ⟨h.1.congr (a c (by simp)), ih h.2 (fun d hd => a d (by simp [hd]))⟩

/-- If the whole extent of the chunk is unchanged, so are its meta data. -/
theorem CkAgree.of_extent {m m' : Mem} {c : Ck} (hw : c.off ≤ c.size) (h16 : 16 ≤ c.size)
    (a : AgreeOn m m' c.addr c.size) : CkAgree m m' c := by
  refine ⟨a.sub (by omega) (by omega), a.sub (by omega) (by omega), ?_⟩
  intro p hp
  have : c.off = 24 + p := by simp [Ck.off, hp]
  exact a.sub (by omega) (by omega)

/-! ### Geometry of a well-formed heap -/

theorem Seg.WF.ext_tiles {s : Seg} (h : s.WF) : Tiles (s.base + 32) s.ext (s.base + s.size) := by
  have := h.ge
  exact tiles_append.2 ⟨_, h.tiles, by simp [Tiles, Seg.stop]; omega⟩

theorem Seg.WF.ext_size {s : Seg} (h : s.WF) {c : Ck} (hc : c ∈ s.ext) : 16 ≤ c.size ∧ c.off ≤ c.size := by
  rcases List.mem_append.1 hc with hc | hc
  · have := h.chunks c hc; exact ⟨by have := this.ge; omega, this.off⟩
  · rw [List.mem_singleton] at hc; subst hc; simp [Seg.stop, Ck.off]

theorem Seg.WF.ext_bounds {s : Seg} (h : s.WF) {c : Ck} (hc : c ∈ s.ext) :
    s.base + 32 ≤ c.addr ∧ c.addr + c.size ≤ s.base + s.size := tiles_mem h.ext_tiles hc

theorem Seg.WF.bounds {s : Seg} (h : s.WF) {c : Ck} (hc : c ∈ s.chunks) :
    s.base + 32 ≤ c.addr ∧ c.addr + c.size ≤ s.base + s.size - 16 := tiles_mem h.tiles hc

theorem Seg.mem_ext {s : Seg} {c : Ck} (hc : c ∈ s.chunks) : c ∈ s.ext := by
  simp [Seg.ext, hc]

theorem Seg.stop_mem_ext (s : Seg) : s.stop ∈ s.ext := by simp [Seg.ext]

theorem pairwise_mem {α : Type} {R : α → α → Prop} (hR : ∀ x y, R x y → R y x) {l : List α}
    (h : l.Pairwise R) {a b : α} (ha : a ∈ l) (hb : b ∈ l) (hne : a ≠ b) : R a b := by
  induction l with
  | nil => simp at ha
  | cons c l ih =>
    rw [List.pairwise_cons] at h
    rcases List.mem_cons.1 ha with rfl | _
    · rcases List.mem_cons.1 hb with rfl | hb
      · exact absurd rfl hne
      · exact h.1 _ hb
    · rename_i ha'
      rcases List.mem_cons.1 hb with rfl | hb
      · exact hR _ _ (h.1 _ ha')
      · exact ih h.2 ha' hb

theorem AHeap.WF.seg_disj {pb : Nat} {A : AHeap} (W : A.WF pb) {s t : Seg} (hs : s ∈ A.segs)
    (ht : t ∈ A.segs) (hne : s ≠ t) : s.base + s.size ≤ t.base ∨ t.base + t.size ≤ s.base :=
  pairwise_mem (R := fun s t : Seg => s.base + s.size ≤ t.base ∨ t.base + t.size ≤ s.base)
    (fun _ _ h => h.symm) W.disj hs ht hne

/-- Two different chunks (or end marks) of the heap do not overlap. -/
theorem AHeap.WF.ext_disj {pb : Nat} {A : AHeap} (W : A.WF pb) {s t : Seg} (hs : s ∈ A.segs)
    (ht : t ∈ A.segs) {c d : Ck} (hc : c ∈ s.ext) (hd : d ∈ t.ext) (hne : c ≠ d) :
    c.addr + c.size ≤ d.addr ∨ d.addr + d.size ≤ c.addr := by
  by_cases e : s = t
  · subst e
    exact tiles_disj (W.seg s hs).ext_tiles (fun c hc => by have := ((W.seg s hs).ext_size hc).1; omega)
      hc hd hne
  · have h1 := (W.seg s hs).ext_bounds hc
    have h2 := (W.seg t ht).ext_bounds hd
    have := W.seg_disj hs ht e
    omega

theorem AHeap.WF.has_disj {pb : Nat} {A : AHeap} (W : A.WF pb) {c d : Ck} (hc : A.Has c) (hd : A.Has d)
    (hne : c ≠ d) : c.addr + c.size ≤ d.addr ∨ d.addr + d.size ≤ c.addr := by
  obtain ⟨s, hs, hc⟩ := hc
  obtain ⟨t, ht, hd⟩ := hd
  exact W.ext_disj hs ht (Seg.mem_ext hc) (Seg.mem_ext hd) hne

theorem AHeap.WF.has_wf {pb : Nat} {A : AHeap} (W : A.WF pb) {c : Ck} (hc : A.Has c) : c.WF := by
  obtain ⟨s, hs, hc⟩ := hc
  exact (W.seg s hs).chunks c hc

theorem AHeap.WF.addr_inj {pb : Nat} {A : AHeap} (W : A.WF pb) {c d : Ck} (hc : A.Has c) (hd : A.Has d)
    (he : c.addr = d.addr) : c = d := by
  by_contra hne
  have := W.has_disj hc hd hne
  have := (W.has_wf hc).ge
  have := (W.has_wf hd).ge
  omega

theorem AHeap.WF.has_pool {pb : Nat} {A : AHeap} (W : A.WF pb) {c : Ck} (hc : A.Has c) :
    c.addr + c.size ≤ pb ∨ pb + 1536 ≤ c.addr := by
  obtain ⟨s, hs, hc⟩ := hc
  have := (W.seg s hs).bounds hc
  have := W.pool s hs
  have := (W.seg s hs).ge
  omega

theorem AHeap.WF.has_range {pb : Nat} {A : AHeap} (W : A.WF pb) {c : Ck} (hc : A.Has c) :
    32 < c.addr ∧ c.addr + c.size + 16 < W64 ∧ c.size < W56 := by
  obtain ⟨s, hs, hc⟩ := hc
  have := (W.seg s hs).bounds hc
  have := (W.seg s hs).pos
  have := (W.seg s hs).lt
  have := (W.seg s hs).lt56
  have := (W.seg s hs).ge
  omega

theorem tiles_addr_dvd {a e : Nat} {l : List Ck} (h : Tiles a l e) (ha : 16 ∣ a)
    (hs : ∀ c ∈ l, 16 ∣ c.size) {c : Ck} (hc : c ∈ l) : 16 ∣ c.addr := by
  induction l generalizing a with
  | nil => simp at hc
  | cons d l ih =>
    rcases List.mem_cons.1 hc with rfl | hc
    · rw [h.1]; exact ha
    · exact ih h.2 (Nat.dvd_add ha (hs d (by simp))) (fun c hc => hs c (by simp [hc])) hc

theorem Seg.WF.addr_dvd {s : Seg} (h : s.WF) {c : Ck} (hc : c ∈ s.chunks) : 16 ∣ c.addr :=
  tiles_addr_dvd h.tiles (by have := h.dvdB; omega) (fun c hc => (h.chunks c hc).dvd) hc

/-- A chunk is in at most one free list. -/
theorem AHeap.WF.fl_unique {pb : Nat} {A : AHeap} (W : A.WF pb) {i j : Nat} {c : Ck}
    (hi : c ∈ A.fl i) (hj : c ∈ A.fl j) : i = j :=
  (W.flClass i c hi).unique (W.flClass j c hj)

/-! ### Nodes of the free lists -/

/-- Address of a node of the lists: a head or a free chunk. -/
def AHeap.Node (pb : Nat) (A : AHeap) (a : Nat) : Prop :=
  (∃ i, i < 48 ∧ a = pb + 32 * i) ∨ ∃ i c, c ∈ A.fl i ∧ a = c.addr

theorem AHeap.WF.node_sep {pb : Nat} {A : AHeap} (W : A.WF pb) {a b : Nat} (ha : A.Node pb a)
    (hb : A.Node pb b) (hne : a ≠ b) : Sep a b := by
  unfold Sep
  rcases ha with ⟨i, hi, rfl⟩ | ⟨i, c, hc, rfl⟩ <;> rcases hb with ⟨j, hj, rfl⟩ | ⟨j, d, hd, rfl⟩
  · omega
  · have := W.has_pool (W.flHas _ _ hd); have := (W.has_wf (W.flHas _ _ hd)).ge; omega
  · have := W.has_pool (W.flHas _ _ hc); have := (W.has_wf (W.flHas _ _ hc)).ge; omega
  · have hcd : c ≠ d := fun e => hne (by rw [e])
    have := W.has_disj (W.flHas _ _ hc) (W.flHas _ _ hd) hcd
    have := (W.has_wf (W.flHas _ _ hc)).ge
    have := (W.has_wf (W.flHas _ _ hd)).ge
    omega

theorem AHeap.WF.node_pos {pb : Nat} {A : AHeap} (W : A.WF pb) {a : Nat} (ha : A.Node pb a) :
    0 < a ∧ a < W64 := by
  rcases ha with ⟨i, hi, rfl⟩ | ⟨i, c, hc, rfl⟩
  · have := W.pbpos; have := W.pblt; omega
  · have := W.has_range (W.flHas _ _ hc); omega

end MpcAlloc

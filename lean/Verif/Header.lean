import Verif.SizeClass

/-
Chunk headers in memory (/repo/src/sctk_alloc_chunk.h, /repo/src/sctk_alloc_inlined.h).

Layout (little endian x86-64, gcc bit-fields):
* large header, 16 bytes: `size:56` at 0..6, `addr` at 7, `prevSize:56` at 8..14, info byte at 15;
* padded header, 8 bytes: `padding:56` at 0..6, info byte at 7;
* info byte: `type` bits 0-1, `state` bit 2, `unused_magik` bits 3-7;
* free chunk, 32 bytes: large header, `next` at 16..23, `prev` at 24..31;
* macro bloc, 32 bytes: large header, `chain` at 16..23, 8 bytes of padding.

A `vchunk` is the address of an info byte; 0 is NULL.
-/

namespace MpcAlloc

/-- `SCTK_ALLOC_MAGIC_STATUS`, sctk_alloc_common.h 77. -/
def MAGIC : Nat := 16
/-- `SCTK_ALLOC_CHUNK_TYPE_LARGE`, sctk_alloc_chunk.h. -/
def TLARGE : Nat := 1
/-- `SCTK_ALLOC_CHUNK_TYPE_PADDED`, sctk_alloc_chunk.h. -/
def TPADDED : Nat := 2
/-- `SCTK_ALLOC_CHUNK_STATE_FREE`, sctk_alloc_chunk.h. -/
def SFREE : Nat := 0
/-- `SCTK_ALLOC_CHUNK_STATE_ALLOCATED`, sctk_alloc_chunk.h. -/
def SALLOC : Nat := 1

/-! ### Info byte (struct sctk_alloc_chunk_info, sctk_alloc_chunk.h 75-83) -/

/-- `info->type` -/
def infoType (m : Mem) (v : Nat) : Nat := (m v).toNat % 4
/-- `info->state` -/
def infoState (m : Mem) (v : Nat) : Nat := (m v).toNat / 4 % 2
/-- `info->unused_magik` -/
def infoMagic (m : Mem) (v : Nat) : Nat := (m v).toNat / 8
/-- `info->type = t` (read-modify-write of the byte) -/
def setType (m : Mem) (v t : Nat) : Mem :=
  writeLE m v 1 (t % 4 + 4 * infoState m v + 8 * infoMagic m v)
/-- `info->state = s` -/
def setState (m : Mem) (v s : Nat) : Mem :=
  writeLE m v 1 (infoType m v + 4 * (s % 2) + 8 * infoMagic m v)
/-- `info->unused_magik = g` -/
def setMagic (m : Mem) (v g : Nat) : Mem :=
  writeLE m v 1 (infoType m v + 4 * infoState m v + 8 * (g % 32))

/-! ### Large header fields (sctk_alloc_inlined.h 54-158); `h` is the address of the header -/

/-- `sctk_alloc_get_chunk_header_large_size` -/
def hSize (m : Mem) (h : Nat) : Nat := readLE m h 7
/-- `sctk_alloc_get_chunk_header_large_previous_size` -/
def hPrev (m : Mem) (h : Nat) : Nat := readLE m (h + 8) 7
/-- `sctk_alloc_set_chunk_header_large_size` -/
def setSize (m : Mem) (h v : Nat) : Mem := writeLE m h 7 v
/-- `sctk_alloc_set_chunk_header_large_addr` -/
def setAddrByte (m : Mem) (h v : Nat) : Mem := writeLE m (h + 7) 1 v
/-- `sctk_alloc_set_chunk_header_large_previous_size` -/
def setPrevSize (m : Mem) (h v : Nat) : Mem := writeLE m (h + 8) 7 v
/-- `sctk_alloc_get_chunk_header_padded_padding` -/
def hPadding (m : Mem) (p : Nat) : Nat := readLE m p 7
/-- `sctk_alloc_set_chunk_header_padded_padding` -/
def setPadding (m : Mem) (p v : Nat) : Mem := writeLE m p 7 v

/-- `sctk_alloc_get_large`, sctk_alloc_inlined.h 199-205: `(header*)(vchunk+1) - 1`. -/
def vLarge (v : Nat) : Nat := sub64 (add64 v 1) 16
/-- `sctk_alloc_get_padded`, sctk_alloc_inlined.h 207-213. -/
def vPadded (v : Nat) : Nat := sub64 (add64 v 1) 8
/-- `sctk_alloc_large_to_vchunk`: address of the info byte. -/
def largeToV (h : Nat) : Nat := add64 h 15
/-- `sctk_alloc_padded_to_vchunk`: address of the info byte. -/
def paddedToV (p : Nat) : Nat := add64 p 7

/-- `sctk_alloc_get_chunk`, sctk_alloc_inlined.h 168-196. -/
def getChunk (m : Mem) (ptr : Nat) : Outcome Nat :=
  if ptr = 0 then .ok 0
  else
    let v := sub64 ptr 1
    if infoMagic m v ≠ MAGIC then .ok 0
    else if infoType m v = TLARGE ∨ infoType m v = TPADDED then .ok v
    else .abort

/-- `sctk_alloc_get_ptr` / `sctk_alloc_get_addr`, sctk_alloc_inlined.h 215-234. -/
def getPtr (m : Mem) (v : Nat) : Outcome Nat :=
  if infoType m v = TLARGE then .ok (vLarge v)
  else if infoType m v = TPADDED then .ok (vPadded v)
  else .abort

/-- `sctk_alloc_get_size`, 237-240. -/
def getSize (m : Mem) (v : Nat) : Nat := hSize m (vLarge v)
/-- `sctk_alloc_get_usable_size`, 243-246. -/
def getUsableSize (m : Mem) (v : Nat) : Nat := sub64 (hSize m (vLarge v)) 16
/-- `sctk_alloc_get_prev_size`, 249-252. -/
def getPrevSize (m : Mem) (v : Nat) : Nat := hPrev m (vLarge v)

/-- `sctk_alloc_unpadd_vchunk`, 273-281. -/
def unpaddVchunk (m : Mem) (p : Nat) : Outcome Nat := getChunk m (sub64 p (hPadding m p))

/-- `sctk_alloc_unpad_vchunk`, 290-298. -/
def unpadVchunk (m : Mem) (v : Nat) : Outcome Nat :=
  if v = 0 then .ok 0
  else if infoType m v = TPADDED then unpaddVchunk m (vPadded v)
  else .ok v

/-- `sctk_alloc_get_chunk_unpadded`, 307-310. -/
def getChunkUnpadded (m : Mem) (ptr : Nat) : Outcome Nat := do
  let v ← getChunk m ptr
  unpadVchunk m v

/-- `sctk_alloc_get_next_chunk`, 326-337. -/
def getNextChunk (m : Mem) (v : Nat) : Nat := add64 v (hSize m (vLarge v))

/-- `sctk_alloc_get_prev_chunk`, sctk_allocator.c 852-869. -/
def getPrevChunk (m : Mem) (v : Nat) : Nat :=
  if getPrevSize m v = 0 then 0 else sub64 v (getPrevSize m v)

/-- `sctk_alloc_setup_large_header`, sctk_alloc_inlined.h 349-370. -/
def setupLargeHeader (m : Mem) (ptr size prev : Nat) : Mem :=
  let m := setSize m ptr size
  let m := setAddrByte m ptr ptr
  let m := setState m (ptr + 15) SALLOC
  let m := setType m (ptr + 15) TLARGE
  let m := setMagic m (ptr + 15) MAGIC
  if prev = 0 ∨ prev = ptr then setPrevSize m ptr 0 else setPrevSize m ptr (sub64 ptr prev)

/-- `sctk_alloc_setup_chunk`, 392-395: memory and resulting vchunk. -/
def setupChunk (m : Mem) (ptr size prev : Nat) : Mem × Nat :=
  (setupLargeHeader m ptr size prev, largeToV ptr)

/-- `sctk_alloc_setup_macro_bloc`, 373-380. -/
def setupMacroBloc (m : Mem) (ptr size : Nat) : Mem :=
  writeLE (setupLargeHeader m ptr size 0) (ptr + 16) 8 0

/-- `sctk_alloc_create_stopper`, sctk_allocator.c 168-172. -/
def createStopper (m : Mem) (ptr prev : Nat) : Mem :=
  setSize (setupLargeHeader m ptr 128 prev) ptr 0

/-- `sctk_alloc_chunk_body`, sctk_allocator.c 1208-1216. -/
def chunkBody (v : Nat) : Nat := if v = 0 then 0 else add64 v 1

/-- `sctk_alloc_setup_chunk_padded`, sctk_allocator.c 117-157. -/
def setupChunkPadded (m : Mem) (v boundary : Nat) : Mem × Nat :=
  let ptrOrig := chunkBody v
  if boundary > 1 ∧ v ≠ 0 ∧ ptrOrig % boundary ≠ 0 then
    let ptr := add64 ptrOrig 8
    let ptr := if ptr % boundary ≠ 0 then add64 ptr (sub64 boundary (ptr % boundary)) else ptr
    let p := sub64 ptr 8
    let m := setPadding m p (sub64 p ptrOrig)
    let m := setState m (p + 7) (infoState m v)
    let m := setType m (p + 7) TPADDED
    let m := setMagic m (p + 7) MAGIC
    (m, paddedToV p)
  else (m, v)

/-- `sctk_alloc_is_power_of_two`, sctk_alloc_inlined.h 45-48. -/
def isPowerOfTwo (n : Nat) : Bool := n != 0 && (n &&& (n - 1)) == 0

/-- `sctk_alloc_align_size_pow_of_2` for `align = 16`, sctk_allocator.c 791-795:
`(size + 15) & ~15` on 64 bits. -/
def alignSize16 (size : Nat) : Nat := add64 size 15 / 16 * 16

/-! ## Lemmas -/

theorem byte_lt (m : Mem) (v : Nat) : (m v).toNat < 256 := (m v).toNat_lt

theorem writeLE1_same (m : Mem) (v x : Nat) (h : x < 256) : (writeLE m v 1 x v).toNat = x := by
  unfold writeLE
  rw [if_pos (by omega)]
  simp [UInt8.toNat_ofNat', Nat.mod_eq_of_lt h]

theorem setState_byte (m : Mem) (v s : Nat) :
    (setState m v s v).toNat = infoType m v + 4 * (s % 2) + 8 * infoMagic m v := by
  unfold setState
  have := byte_lt m v
  rw [writeLE1_same]
  unfold infoType infoMagic; omega

theorem setType_byte (m : Mem) (v s : Nat) :
    (setType m v s v).toNat = s % 4 + 4 * infoState m v + 8 * infoMagic m v := by
  unfold setType
  have := byte_lt m v
  rw [writeLE1_same]
  unfold infoState infoMagic; omega

theorem setMagic_byte (m : Mem) (v s : Nat) :
    (setMagic m v s v).toNat = infoType m v + 4 * infoState m v + 8 * (s % 32) := by
  unfold setMagic
  have := byte_lt m v
  rw [writeLE1_same]
  unfold infoState infoType; omega

theorem setState_other {m : Mem} {v s x : Nat} (h : x ≠ v) : setState m v s x = m x :=
  writeLE_other (by omega)
theorem setType_other {m : Mem} {v s x : Nat} (h : x ≠ v) : setType m v s x = m x :=
  writeLE_other (by omega)
theorem setMagic_other {m : Mem} {v s x : Nat} (h : x ≠ v) : setMagic m v s x = m x :=
  writeLE_other (by omega)

theorem setInfo3 (m : Mem) (v s t g : Nat) :
    (setMagic (setType (setState m v s) v t) v g v).toNat = t % 4 + 4 * (s % 2) + 8 * (g % 32) := by
  have h1 := setState_byte m v s
  have h2 := setType_byte (setState m v s) v t
  have h3 := setMagic_byte (setType (setState m v s) v t) v g
  have h4 := byte_lt m v
  unfold infoType infoMagic infoState at *
  omega

/-- A large header at `h` with the given fields. -/
structure HdrAt (m : Mem) (h size prev state : Nat) : Prop where
  size : hSize m h = size
  prev : hPrev m h = prev
  info : (m (h + 15)).toNat = 129 + 4 * state

theorem HdrAt.congr {m m' : Mem} {h s p st : Nat} (H : HdrAt m h s p st)
    (a : AgreeOn m m' h 7) (b : AgreeOn m m' (h + 8) 8) : HdrAt m' h s p st := by
  refine ⟨?_, ?_, ?_⟩
  · unfold hSize; rw [readLE_congr a]; exact H.size
  · unfold hPrev; rw [readLE_congr (b.sub (Nat.le_refl _) (by omega))]; exact H.prev
  · rw [b (h + 15) (by omega) (by omega)]; exact H.info

theorem setupLargeHeader_other {m : Mem} {ptr size prev x : Nat} (h : x < ptr ∨ ptr + 16 ≤ x) :
    setupLargeHeader m ptr size prev x = m x := by
  unfold setupLargeHeader
  split <;>
  · unfold setPrevSize
    rw [writeLE_other (by omega), setMagic_other (by omega), setType_other (by omega),
      setState_other (by omega)]
    unfold setAddrByte setSize
    rw [writeLE_other (by omega), writeLE_other (by omega)]

/-- Previous size stored by `setupLargeHeader`. -/
def prevField (ptr prev : Nat) : Nat := if prev = 0 ∨ prev = ptr then 0 else sub64 ptr prev % W56

theorem setupLargeHeader_hdr (m : Mem) (ptr size prev : Nat) :
    HdrAt (setupLargeHeader m ptr size prev) ptr (size % W56) (prevField ptr prev) 1 := by
  have key : ∀ w : Nat,
      HdrAt (setPrevSize (setMagic (setType (setState (setAddrByte (setSize m ptr size) ptr ptr)
        (ptr + 15) SALLOC) (ptr + 15) TLARGE) (ptr + 15) MAGIC) ptr w) ptr (size % W56) (w % W56) 1 := by
    intro w
    refine ⟨?_, ?_, ?_⟩
    · unfold hSize setPrevSize
      rw [readLE_writeLE_other (by omega)]
      unfold setMagic; rw [readLE_writeLE_other (by omega)]
      unfold setType; rw [readLE_writeLE_other (by omega)]
      unfold setState; rw [readLE_writeLE_other (by omega)]
      unfold setAddrByte; rw [readLE_writeLE_other (by omega)]
      unfold setSize; rw [readLE_writeLE_same]
    · unfold hPrev setPrevSize
      rw [readLE_writeLE_same]
    · unfold setPrevSize
      rw [writeLE_other (by omega), setInfo3]
      rfl
  unfold setupLargeHeader prevField
  split
  · exact key 0
  · exact key _

theorem HdrAt.setPrevSize {m : Mem} {h s p st : Nat} (H : HdrAt m h s p st) (w : Nat) :
    HdrAt (setPrevSize m h w) h s (w % W56) st := by
  refine ⟨?_, ?_, ?_⟩
  · unfold hSize MpcAlloc.setPrevSize; rw [readLE_writeLE_other (by omega)]; exact H.size
  · unfold hPrev MpcAlloc.setPrevSize; rw [readLE_writeLE_same]
  · unfold MpcAlloc.setPrevSize; rw [writeLE_other (by omega)]; exact H.info

theorem HdrAt.setSize {m : Mem} {h s p st : Nat} (H : HdrAt m h s p st) (w : Nat) :
    HdrAt (setSize m h w) h (w % W56) p st := by
  refine ⟨?_, ?_, ?_⟩
  · unfold hSize MpcAlloc.setSize; rw [readLE_writeLE_same]
  · unfold hPrev MpcAlloc.setSize; rw [readLE_writeLE_other (by omega)]; exact H.prev
  · unfold MpcAlloc.setSize; rw [writeLE_other (by omega)]; exact H.info

theorem HdrAt.setState {m : Mem} {h s p st : Nat} (H : HdrAt m h s p st) (hst : st < 2) {w : Nat} (hw : w < 2) :
    HdrAt (setState m (h + 15) w) h s p w := by
  refine ⟨?_, ?_, ?_⟩
  · unfold hSize MpcAlloc.setState; rw [readLE_writeLE_other (by omega)]; exact H.size
  · unfold hPrev MpcAlloc.setState; rw [readLE_writeLE_other (by omega)]; exact H.prev
  · rw [setState_byte]
    have := H.info
    unfold infoType infoMagic
    have := byte_lt m (h+15)
    omega

theorem HdrAt.magic {m : Mem} {h s p st : Nat} (H : HdrAt m h s p st) (hst : st < 2) :
    infoMagic m (h + 15) = MAGIC := by
  unfold infoMagic MAGIC; have := H.info; omega
theorem HdrAt.type {m : Mem} {h s p st : Nat} (H : HdrAt m h s p st) :
    infoType m (h + 15) = TLARGE := by
  unfold infoType TLARGE; have := H.info; omega
theorem HdrAt.state {m : Mem} {h s p st : Nat} (H : HdrAt m h s p st) (hst : st < 2) :
    infoState m (h + 15) = st := by
  unfold infoState; have := H.info; omega

theorem vLarge_eq {h : Nat} (hh : h + 16 < W64) : vLarge (h + 15) = h := by
  unfold vLarge
  rw [add64_eq (by omega), sub64_eq (by omega) (by omega)]; omega
theorem vPadded_eq {p : Nat} (hh : p + 8 < W64) : vPadded (p + 7) = p := by
  unfold vPadded
  rw [add64_eq (by omega), sub64_eq (by omega) (by omega)]; omega
theorem largeToV_eq {h : Nat} (hh : h + 16 < W64) : largeToV h = h + 15 := add64_eq (by omega)
theorem paddedToV_eq {h : Nat} (hh : h + 8 < W64) : paddedToV h = h + 7 := add64_eq (by omega)
theorem chunkBody_eq {h : Nat} (hh : h + 16 < W64) : chunkBody (h + 15) = h + 16 := by
  unfold chunkBody; rw [if_neg (by omega), add64_eq (by omega)]

theorem createStopper_other {m : Mem} {ptr prev x : Nat} (h : x < ptr ∨ ptr + 16 ≤ x) :
    createStopper m ptr prev x = m x := by
  unfold createStopper setSize
  rw [writeLE_other (by omega), setupLargeHeader_other h]

theorem createStopper_hdr (m : Mem) (ptr prev : Nat) :
    HdrAt (createStopper m ptr prev) ptr 0 (prevField ptr prev) 1 := by
  have := (setupLargeHeader_hdr m ptr 128 prev).setSize 0
  simpa [createStopper] using this

theorem prevField_eq {ptr prev : Nat} (h1 : 0 < prev) (h2 : prev < ptr) (h3 : ptr < W64)
    (h4 : ptr - prev < W56) : prevField ptr prev = ptr - prev := by
  unfold prevField
  rw [if_neg (by omega), sub64_eq (by omega) h3, Nat.mod_eq_of_lt h4]

@[simp] theorem prevField_zero (ptr : Nat) : prevField ptr 0 = 0 := by simp [prevField]
@[simp] theorem prevField_self (ptr : Nat) : prevField ptr ptr = 0 := by simp [prevField]

/-! ### Padded headers -/

/-- A padded header at `p` holding the padding `pad`. -/
structure PadAt (m : Mem) (p pad : Nat) : Prop where
  pad : hPadding m p = pad
  info : (m (p + 7)).toNat = 134

theorem PadAt.congr {m m' : Mem} {p pad : Nat} (H : PadAt m p pad) (a : AgreeOn m m' p 8) :
    PadAt m' p pad := by
  refine ⟨?_, ?_⟩
  · unfold hPadding; rw [readLE_congr (a.sub (Nat.le_refl _) (by omega))]; exact H.pad
  · rw [a _ (by omega) (by omega)]; exact H.info

/-- Distance from the body of a chunk to the aligned pointer computed by `setupChunkPadded`. -/
def alignUp (a b : Nat) : Nat := if a % b = 0 then a else a + (b - a % b)

theorem alignUp_dvd {a b : Nat} (hb : 0 < b) : b ∣ alignUp a b := by
  unfold alignUp
  split
  · exact Nat.dvd_of_mod_eq_zero ‹_›
  · have := Nat.mod_lt a hb
    have e : a + (b - a % b) = b * (a / b + 1) := by
      have := Nat.div_add_mod a b
      rw [Nat.mul_add, Nat.mul_one]; omega
    rw [e]; exact Nat.dvd_mul_right _ _

theorem alignUp_ge (a b : Nat) : a ≤ alignUp a b := by unfold alignUp; split <;> omega
theorem alignUp_lt {a b : Nat} (hb : 0 < b) : alignUp a b < a + b := by
  unfold alignUp
  have := Nat.mod_lt a hb
  split <;> omega

theorem setupChunkPadded_spec {m : Mem} {h s p boundary : Nat} (H : HdrAt m h s p 1)
    (hb : 1 < boundary) (hne : (h + 16) % boundary ≠ 0)
    (hlt : alignUp (h + 24) boundary < W64) (h56 : alignUp (h + 24) boundary - (h + 24) < W56) :
    ∃ m', setupChunkPadded m (h + 15) boundary = (m', alignUp (h + 24) boundary - 1) ∧
      PadAt m' (alignUp (h + 24) boundary - 8) (alignUp (h + 24) boundary - (h + 24)) ∧
      (∀ x, x < alignUp (h + 24) boundary - 8 ∨ alignUp (h + 24) boundary ≤ x → m' x = m x) := by
  have hge := alignUp_ge (h + 24) boundary
  unfold setupChunkPadded
  rw [chunkBody_eq (by omega)]
  rw [if_pos ⟨hb, by omega, hne⟩]
  have e1 : add64 (h + 16) 8 = h + 24 := add64_eq (by omega)
  have e2 : (if (h + 24) % boundary ≠ 0 then add64 (h + 24) (sub64 boundary ((h + 24) % boundary)) else h + 24)
      = alignUp (h + 24) boundary := by
    unfold alignUp
    by_cases hz : (h + 24) % boundary = 0
    · rw [if_pos hz, if_neg (by omega)]
    · rw [if_neg hz, if_pos hz]
      unfold alignUp at hlt
      rw [if_neg hz] at hlt
      have := Nat.mod_lt (h + 24) (show 0 < boundary by omega)
      by_cases hbig : boundary < W64
      · rw [sub64_eq (by omega) hbig, add64_eq hlt]
      · have : (h + 24) % boundary = h + 24 := Nat.mod_eq_of_lt (by omega)
        omega
  simp only [e1, e2]
  obtain ⟨q, hq⟩ : ∃ q, q = alignUp (h + 24) boundary - 8 := ⟨_, rfl⟩
  have hq8 : alignUp (h + 24) boundary = q + 8 := by omega
  rw [hq8] at hlt h56 hge ⊢
  have e3 : sub64 (q + 8) 8 = q := by rw [sub64_eq (by omega) (by omega)]; omega
  have e4 : sub64 q (h + 16) = q - (h + 16) := sub64_eq (by omega) (by omega)
  simp only [e3, e4]
  refine ⟨setMagic (setType (setState (setPadding m q (q - (h + 16))) (q + 7)
      (infoState (setPadding m q (q - (h + 16))) (h + 15))) (q + 7) TPADDED) (q + 7) MAGIC, ?_, ?_, ?_⟩
  · rw [paddedToV_eq (by omega)]; rfl
  · have : q + 8 - 8 = q := by omega
    rw [this]
    refine ⟨?_, ?_⟩
    · unfold hPadding
      unfold setMagic; rw [readLE_writeLE_other (by omega)]
      unfold setType; rw [readLE_writeLE_other (by omega)]
      unfold setState; rw [readLE_writeLE_other (by omega)]
      unfold setPadding; rw [readLE_writeLE_same, Nat.mod_eq_of_lt (by omega)]; omega
    · rw [setInfo3]
      have : infoState (setPadding m q (q - (h + 16))) (h + 15) = 1 := by
        unfold infoState setPadding
        rw [writeLE_other (by omega), H.info]
      rw [this]; rfl
  · intro x hx
    rw [setMagic_other (by omega), setType_other (by omega), setState_other (by omega)]
    unfold setPadding
    rw [writeLE_other (by omega)]

/-! ### Pointer to chunk -/

theorem getChunk_large {m : Mem} {h s p st : Nat} (H : HdrAt m h s p st) (hst : st < 2)
    (hh : h + 16 < W64) : getChunk m (h + 16) = .ok (h + 15) := by
  unfold getChunk
  rw [if_neg (by omega), sub64_eq (by omega) (by omega)]
  have e : h + 16 - 1 = h + 15 := by omega
  simp only [e]
  rw [if_neg (by simp [H.magic hst]), if_pos (Or.inl H.type)]

theorem getChunkUnpadded_large {m : Mem} {h s p st : Nat} (H : HdrAt m h s p st) (hst : st < 2)
    (hh : h + 16 < W64) : getChunkUnpadded m (h + 16) = .ok (h + 15) := by
  unfold getChunkUnpadded
  rw [getChunk_large H hst hh]
  simp only [Outcome.ok_bind]
  unfold unpadVchunk
  rw [if_neg (by omega), if_neg (by rw [H.type]; decide)]

theorem getChunk_padded {m : Mem} {p pad : Nat} (H : PadAt m p pad)
    (hh : p + 8 < W64) : getChunk m (p + 8) = .ok (p + 7) := by
  unfold getChunk
  rw [if_neg (by omega), sub64_eq (by omega) (by omega)]
  have e : p + 8 - 1 = p + 7 := by omega
  simp only [e]
  have := H.info
  rw [if_neg (by simp [infoMagic, this, MAGIC]), if_pos (Or.inr (by simp [infoType, this, TPADDED]))]

theorem getChunkUnpadded_padded {m : Mem} {h s p st pad : Nat} (H : HdrAt m h s p st) (hst : st < 2)
    (P : PadAt m (h + 16 + pad) pad) (hh : h + 24 + pad < W64) :
    getChunkUnpadded m (h + 24 + pad) = .ok (h + 15) := by
  unfold getChunkUnpadded
  have e : h + 24 + pad = (h + 16 + pad) + 8 := by omega
  rw [e, getChunk_padded P (by omega)]
  simp only [Outcome.ok_bind]
  unfold unpadVchunk
  have := P.info
  rw [if_neg (by omega), if_pos (by simp [infoType, this, TPADDED]), vPadded_eq (by omega)]
  unfold unpaddVchunk
  rw [P.pad, sub64_eq (by omega) (by omega)]
  have e : h + 16 + pad - pad = h + 16 := by omega
  rw [e, getChunk_large H hst (by omega)]

theorem getPtr_large {m : Mem} {h s p st : Nat} (H : HdrAt m h s p st) (hh : h + 16 < W64) :
    getPtr m (h + 15) = .ok h := by
  unfold getPtr
  rw [if_pos H.type, vLarge_eq hh]

theorem getSize_large {m : Mem} {h s p st : Nat} (H : HdrAt m h s p st) (hh : h + 16 < W64) :
    getSize m (h + 15) = s := by unfold getSize; rw [vLarge_eq hh]; exact H.size
theorem getPrevSize_large {m : Mem} {h s p st : Nat} (H : HdrAt m h s p st) (hh : h + 16 < W64) :
    getPrevSize m (h + 15) = p := by unfold getPrevSize; rw [vLarge_eq hh]; exact H.prev
theorem getNextChunk_large {m : Mem} {h s p st : Nat} (H : HdrAt m h s p st) (hh : h + 16 < W64)
    (hs : h + 15 + s < W64) : getNextChunk m (h + 15) = h + s + 15 := by
  unfold getNextChunk; rw [vLarge_eq hh, H.size, add64_eq hs]; omega

end MpcAlloc

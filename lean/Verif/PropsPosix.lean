import Verif.PosixOps

/-
Properties of the POSIX entry points (C24, C30, C31, C32, C43, C44) for histories of any number of threads, calls taken one
at a time. The client side specification is in PosixSpec.
-/

namespace MpcAlloc

variable {Ω : Env}

/-! ## C30: blocks of all threads -/

/-- The calling thread. -/
def POp.thread : POp → Option Nat
  | .spawn _ _ _ | .write _ _ => none
  | .malloc t _ _ | .memalign t _ _ | .calloc t _ _ _ | .free t _ | .realloc t _ _ _ => some t

theorem PInv.disj {cl : Prop} {s : PS} {G : PSpec} (I : PInv Ω cl s G) :
    (G.live ++ G.pend).Pairwise PBlock.Disj ∧ ∀ l ∈ G.live ++ G.pend, l.ptr ≠ 0 ∧ l.owner < s.chs.length ∧
      ∀ x, l.Byte x → s.w.src.os.used x = true := by
  obtain ⟨H, L, P, B, K⟩ := I
  have hall : ∀ l ∈ G.live ++ G.pend, ∃ g k, H[l.owner]? = some g ∧ g.A.Used k ∧ k.uptr = l.ptr ∧
      l.ptr + l.len ≤ k.addr + k.size := by
    intro l hl
    rcases List.mem_append.1 hl with h | h
    · obtain ⟨g, k, h1, h2, _, h3, h4, _⟩ := K.live l h
      exact ⟨g, k, h1, h2, h3, h4⟩
    · obtain ⟨g, k, h1, h2, h3, h4⟩ := K.pend l h
      obtain ⟨c, _, T⟩ := B.getH h1
      exact ⟨g, k, h1, T.q.used k h2, h3, h4⟩
  refine ⟨K.nodup.imp_of_mem ?_, ?_⟩
  · intro l l' hl hl' hne
    refine ⟨hne, fun x ⟨hx, hx'⟩ => ?_⟩
    obtain ⟨g, k, h1, h2, h3, h4⟩ := hall l hl
    obtain ⟨g', k', h1', h2', h3', h4'⟩ := hall l' hl'
    obtain ⟨c, _, T⟩ := B.getH h1
    have hu := T.ch.wf.uptr_ge k
    have hu' := T.ch.wf.uptr_ge k'
    have := B.disj h1 h1' h2 h2' (Or.inr (fun e => hne (by rw [← h3, ← h3', e])))
    unfold PBlock.Byte at hx hx'
    omega
  · intro l hl
    obtain ⟨g, k, h1, h2, h3, h4⟩ := hall l hl
    obtain ⟨c, hc, T⟩ := B.getH h1
    have hu := T.ch.wf.uptr_ge k
    refine ⟨by omega, (List.getElem?_eq_some_iff.1 hc).1, fun x hx => ?_⟩
    obtain ⟨d, hd, d1, d2⟩ := seg_of_has T.ch.wf h2.1
    unfold PBlock.Byte at hx
    exact (B.lin.good d (List.mem_append_left _ (mem_shapes.2 ⟨_, g, h1, hd⟩))).used x (by omega) (by omega)

/-- C30. The blocks of all threads, and those freed by a thread that does not own them and not yet taken back by their
owner, are pairwise disjoint, and lie in mapped memory. Missing: sizes that wrap around or do not fit (`PSize`), and the
resize of an aligned block to a larger size by its own thread. -/
theorem C30_blocks_disjoint_partial {C : Config} {X : POp → Prop} {s : PS} {G : PSpec} (hf : C.reallocFactor ≠ 0)
    (h : PReach C X s G) : (G.live ++ G.pend).Pairwise PBlock.Disj ∧
      ∀ l ∈ G.live ++ G.pend, l.ptr ≠ 0 ∧ l.owner < s.chs.length ∧ ∀ x, l.Byte x → s.w.src.os.used x = true :=
  (h.inv (cl := False) hf False.elim).disj

/-- C30. A block freed by another thread stays out of reach until its owner makes a call: no call of the others takes it
from the pending blocks, which are disjoint from all the others by `C30_blocks_disjoint_partial`. -/
theorem C30_pending_partial {C : Config} {X : POp → Prop} {s s' : PS} {G : PSpec} {op : POp} {r : Nat} (hf : C.reallocFactor ≠ 0)
    (h : PReach C X s G) (hv : PValid s G op) (hx : X op) (e : pexec C s op = .ok (s', r)) {l : PBlock}
    (hl : l ∈ G.pend) (ht : op.thread ≠ some l.owner) :
    l ∈ (G.after op r).pend ∧ ∀ l' ∈ (G.after op r).live, PBlock.Disj l' l := by
  have hp : l ∈ (G.after op r).pend := by
    have hd : ∀ t, t ≠ l.owner → l ∈ (G.drain t).pend := fun t h =>
      List.mem_filter.2 ⟨hl, by simpa using fun e => h e.symm⟩
    cases op with
    | spawn a z pb => exact hl
    | malloc t h n => unfold PSpec.after; rw [add_pend]; exact hd t (fun e => ht (by rw [← e]; rfl))
    | memalign t h n => unfold PSpec.after; rw [add_pend]; exact hd t (fun e => ht (by rw [← e]; rfl))
    | calloc t h n k => unfold PSpec.after; rw [add_pend]; exact hd t (fun e => ht (by rw [← e]; rfl))
    | free t p => exact List.mem_append_right _ (hd t (fun e => ht (by rw [← e]; rfl)))
    | realloc t p h n =>
      have h1 := hd t (fun e => ht (by rw [← e]; rfl))
      unfold PSpec.after
      simp only
      split
      · rw [add_pend]; exact h1
      · split
        · exact List.mem_append_right _ h1
        · split
          · split
            · exact hl
            · rw [add_pend]; exact List.mem_append_right _ hl
          · rw [add_pend]; exact List.mem_append_right _ h1
    | write a v => exact hl
  refine ⟨hp, fun l' hl' => ?_⟩
  have := (C30_blocks_disjoint_partial hf (h.step hv hx e)).1
  exact (List.pairwise_append.1 this).2.2 l' hl' l hp

/-- C30. A free by a thread that does not own the block makes it pending. -/
theorem C30_remote_free {G : PSpec} {t : Nat} {l : PBlock} (hl : l ∈ G.live) (ht : l.owner ≠ t) (r : Nat) :
    l ∈ (G.after (.free t l.ptr) r).pend ∧ l ∉ (G.after (.free t l.ptr) r).live := by
  constructor
  · exact List.mem_append_left _ (List.mem_filter.2 ⟨hl, by simpa using ht⟩)
  · intro h
    exact (del_live.1 h).2 rfl

/-- C30. Every valid call succeeds when the kernel has memory for it: it returns an aligned block, a resize keeps the
contents, and the bytes of all the blocks that live before and after the call keep their value. -/
theorem C30_calls_partial {C : Config} {X : POp → Prop} {s : PS} {G : PSpec} {op : POp} (hf : C.reallocFactor ≠ 0)
    (h : PReach C X s G) (hv : PValid s G op) (hm : OpMem s op) :
    ∃ s' r, pexec C s op = .ok (s', r) ∧ POk s G op s' r := by
  rcases pstep hf (h.inv (cl := False) hf False.elim) hv False.elim with ⟨h1, _⟩ | ⟨s', r, e, _, k, _⟩
  · exact absurd hm h1
  · exact ⟨s', r, e, k⟩

/-- C30. Whatever the kernel answers, a valid call either does what it should or fails for lack of memory (which the code
does not detect). -/
theorem C30_calls_any_partial {C : Config} {X : POp → Prop} {s : PS} {G : PSpec} {op : POp} (hf : C.reallocFactor ≠ 0)
    (h : PReach C X s G) (hv : PValid s G op) :
    (¬ OpMem s op ∧ pexec C s op = .ub) ∨ ∃ s' r, pexec C s op = .ok (s', r) ∧ POk s G op s' r := by
  rcases pstep hf (h.inv (cl := False) hf False.elim) hv False.elim with h1 | ⟨s', r, e, _, k, _⟩
  · exact Or.inl h1
  · exact Or.inr ⟨s', r, e, k⟩

/-! ## C43: size of a block -/

/-- C43. The size that the allocator gives for a block is at least the requested one, and that many bytes overlap no
other block. Missing: the sizes from the huge limit on that do not fit (`C43_refuted`). -/
theorem C43_usable_size_partial {C : Config} {X : POp → Prop} {s : PS} {G : PSpec} (hf : C.reallocFactor ≠ 0)
    (h : PReach C X s G) {l : PBlock} (hl : l ∈ G.live) :
    ∃ z, posixGetSize s.w.mem l.ptr = .ok z ∧ l.len ≤ z ∧
      ∀ m ∈ G.live, m.ptr ≠ l.ptr → ∀ x, m.Byte x → ¬ (l.ptr ≤ x ∧ x < l.ptr + z) := by
  obtain ⟨z, e, h1, h2⟩ := getSize_op (h.inv (cl := False) hf False.elim) hl
  refine ⟨z, e, h1, fun m hm hne x hx hx' => ?_⟩
  have := h2 m hm hne
  unfold PBlock.Byte at hx
  omega

/-! ## C45: realloc -/

/-- C45, when the block was allocated without boundary, or by another thread, or does not grow: the resized block has the
contents of the old one, whichever thread calls. Missing: an aligned block that its own thread makes larger (see
`C14_refuted`), and sizes from the huge limit on that do not fit (`PSize`). -/
theorem C45_realloc_partial {C : Config} {X : POp → Prop} {s : PS} {G : PSpec} {t h n : Nat} {l : PBlock}
    (hf : C.reallocFactor ≠ 0) (hr : PReach C X s G) (hl : l ∈ G.live) (hn : n ≠ 0) (ht : t < s.chs.length)
    (hb : GoodBound h) (hsz : PSize (reqSize h n)) (hs : l.owner ≠ t ∨ l.plain = true ∨ n ≤ l.len)
    (hm : HasMem s (reqSize h n)) :
    ∃ s' r, posixRealloc C h s t l.ptr n = .ok (s', r) ∧ r ≠ 0 ∧
      (∀ i, i < min l.len n → s'.w.mem (r + i) = s.w.mem (l.ptr + i)) ∧
      ∀ m ∈ G.live, m.ptr ≠ l.ptr → (∀ x, ¬ (m.Byte x ∧ (r ≤ x ∧ x < r + n))) ∧
        ∀ x, m.Byte x → s'.w.mem x = s.w.mem x := by
  have I := hr.inv (cl := False) hf False.elim
  have hp := I.ptr hl
  rcases realloc_op (C := C) I ht hl hn hf hb hsz False.elim hs with ⟨h1, _⟩ | ⟨s', r, e, hr0, I', k, _, cp, _⟩
  · exact absurd hm h1
  refine ⟨s', r, e, hr0, cp, fun m hm hne => ⟨fun x ⟨hx, hx'⟩ => ?_, k m hm hne⟩⟩
  have hd := (List.pairwise_append.1 I'.disj.1).1
  have key : ∃ q, m ∈ (G.after (.realloc t l.ptr h n) r).live ∧ q ∈ (G.after (.realloc t l.ptr h n) r).live ∧
      q.ptr = r ∧ q.len = n ∧ m ≠ q := by
    unfold PSpec.after
    simp only
    rw [if_neg hp, if_neg hn]
    split
    · split
      · rename_i hrl
        subst hrl
        refine ⟨{ l with len := n }, List.mem_map.2 ⟨m, hm, if_neg hne⟩, List.mem_map.2 ⟨l, hl, if_pos rfl⟩, rfl, rfl, ?_⟩
        intro h; exact hne (by rw [h])
      · have hmd : m ∈ (G.del t l.ptr).live := del_live.2 ⟨hm, hne⟩
        refine ⟨⟨t, r, n, decide (h ≤ 1)⟩, (add_live hr0).2 (Or.inr hmd), (add_live hr0).2 (Or.inl rfl), rfl, rfl, ?_⟩
        rename_i hmine hrl
        have hd2 := hd
        unfold PSpec.after at hd2
        simp only at hd2
        rw [if_neg hp, if_neg hn, if_pos hmine, if_neg hrl] at hd2
        unfold PSpec.add at hd2
        rw [if_neg hr0] at hd2
        exact fun h => ((List.pairwise_cons.1 hd2).1 m hmd).1 (by rw [h])
    · have hmd : m ∈ ((G.drain t).del t l.ptr).live := del_live.2 ⟨hm, hne⟩
      refine ⟨⟨t, r, n, decide (h ≤ 1)⟩, (add_live hr0).2 (Or.inr hmd), (add_live hr0).2 (Or.inl rfl), rfl, rfl, ?_⟩
      rename_i hmine
      have hd2 := hd
      unfold PSpec.after at hd2
      simp only at hd2
      rw [if_neg hp, if_neg hn, if_neg hmine] at hd2
      unfold PSpec.add at hd2
      rw [if_neg hr0] at hd2
      exact fun h => ((List.pairwise_cons.1 hd2).1 m hmd).1 (by rw [h])
  obtain ⟨q, h1, h2, h3, h4, h5⟩ := key
  have := pairwise_mem (fun a b (h : PBlock.Disj a b) => (⟨Ne.symm h.1, fun x hx => h.2 x ⟨hx.2, hx.1⟩⟩ : PBlock.Disj b a))
    hd h1 h2 h5
  refine this.2 x ⟨hx, ?_⟩
  unfold PBlock.Byte
  rw [h3, h4]; exact hx'

/-! ## C24: blocs go back to the source -/

theorem PInv.empty {s : PS} (I : PInv Ω True s ⟨[], []⟩) : ∃ H L D, PBase s H L ⟨D, Ω⟩ ∧ shapes H = [] := by
  obtain ⟨H, L, P, B, K⟩ := I
  refine ⟨H, L, P, B, ?_⟩
  rw [List.eq_nil_iff_forall_not_mem]
  intro d hd
  obtain ⟨t, g, hg, hd⟩ := mem_shapes.1 hd
  obtain ⟨hb, hu⟩ := K.clean trivial t g hg
  obtain ⟨c, hc, _⟩ := hb d hd
  obtain ⟨_, l, hl, _⟩ := hu c hc
  simp at hl

/-- C24, for the sizes that are not just below the huge limit (`CleanSize`): once no block is live and none waits for its
owner, the source has got back all its blocs, no region is registered and the chains count no bloc. Missing: requests
that need a chunk of 1 MB (`C24_refuted`). -/
theorem C24_blocs_returned_partial {C : Config} {s : PS} (hf : C.reallocFactor ≠ 0) (h : PReach C CleanOp s ⟨[], []⟩) :
    s.w.src.counter = 0 ∧ (∀ k, s.w.regs.ent k = 0) ∧ ∀ c ∈ s.chs, c.cnt = 0 := by
  obtain ⟨H, L, P, B, hsh⟩ := (h.inv (cl := True) hf (fun _ _ h => h)).empty
  refine ⟨by rw [B.lin.cnt, hsh]; rfl, fun k => ?_, fun c hc => ?_⟩
  · by_contra hk
    obtain ⟨d, hd, _⟩ := B.reg.own k hk
    have hd : d ∈ shapes H ++ (h.env True hf (fun _ _ h => h)).blocs := hd
    rw [hsh, h.env_blocs] at hd
    cases hd
  · obtain ⟨t, ht⟩ := List.mem_iff_getElem?.1 hc
    obtain ⟨c', g, hc', hg, T⟩ := B.get (List.getElem?_eq_some_iff.1 ht).1
    obtain rfl : c = c' := Option.some.inj (ht.symm.trans hc')
    rw [T.ch.cnt]
    have : g.A.segs = [] := by
      rw [List.eq_nil_iff_forall_not_mem]
      intro q hq
      have := mem_shapes.2 ⟨t, g, hg, mem_shape.2 ⟨q, hq, rfl⟩⟩
      rw [hsh] at this
      cases this
    rw [this]; rfl

/-! ## C31: calloc -/

/-- C31, for products that do not wrap around and, from the huge limit on, that fit (`PSize`): calloc gives a block of
`n * k` bytes, all zero. Missing: products of 2^64 or more (`C31_wraps`). -/
theorem C31_zeroed_partial {C : Config} {X : POp → Prop} {s : PS} {G : PSpec} {t h n k : Nat} (hf : C.reallocFactor ≠ 0)
    (hr : PReach C X s G) (hv : PValid s G (.calloc t h n k)) (hm : OpMem s (.calloc t h n k)) :
    ∃ s' r, posixCalloc C h s t n k = .ok (s', r) ∧ r ≠ 0 ∧ (∀ i, i < n * k → s'.w.mem (r + i) = 0) ∧
      ∀ l ∈ G.live, PBlock.Disj ⟨t, r, n * k, decide (h ≤ 1)⟩ l := by
  rcases pstep (C := C) hf (hr.inv (cl := False) hf False.elim) hv False.elim with ⟨h1, _⟩ | ⟨s', r, e, I, k', _⟩
  · exact absurd hm h1
  · obtain ⟨a, _, _, z⟩ := k'.calloc _ _ _ _ rfl
    refine ⟨s', r, e, a, z, fun l hl => ?_⟩
    have hd := I.disj.1
    unfold PSpec.after PSpec.add at hd
    simp only at hd
    rw [if_neg a] at hd
    exact (List.pairwise_cons.1 hd).1 l (List.mem_append_left _ hl)

/-- The product is computed modulo 2^64. -/
theorem C31_wraps (C : Config) (h : Nat) (s : PS) (t n k : Nat) :
    posixCalloc C h s t n k = posixCalloc C h s t 1 (n * k % W64) := by
  unfold posixCalloc
  rw [Nat.one_mul, Nat.mod_mod]

/-! ## C32: errors of posix_memalign -/

theorem pow2_mod8 {b : Nat} (hb : isPowerOfTwo b = true) : b % 8 ≠ 0 ↔ b = 1 ∨ b = 2 ∨ b = 4 := by
  constructor
  · intro h
    simp only [isPowerOfTwo, Bool.and_eq_true, bne_iff_ne, ne_eq, beq_iff_eq] at hb
    obtain ⟨h0, h1⟩ := hb
    obtain ⟨k, rfl⟩ := (Nat.and_sub_one_eq_zero_iff_isPowerOfTwo h0).1 h1
    rcases k with _ | _ | _ | k
    · simp
    · simp
    · simp
    · exfalso; apply h; rw [show k + 1 + 1 + 1 = k + 3 from rfl, pow_add]; exact Nat.mul_mod_left _ _
  · rintro (rfl | rfl | rfl) <;> decide

/-- C32. What the exported function reports as error: it is `EINVAL` exactly for the boundaries 1, 2 and 4, so that
boundaries that are no powers of two are accepted, as well as 0. -/
theorem C32_einval (C : Config) (s : PS) (t b n : Nat) :
    (∃ s' x, exportPosixMemalign C s t b n = .ok (s', 22, x)) ↔ b = 1 ∨ b = 2 ∨ b = 4 := by
  constructor
  · rintro ⟨s', x, e⟩
    unfold exportPosixMemalign at e
    split at e
    · rename_i h
      exact (pow2_mod8 h.2).1 h.1
    · obtain ⟨⟨u, v⟩, _, e⟩ := Outcome.bind_eq_ok e
      simp only [Outcome.pure_eq] at e
      have := congrArg (fun z : PS × Nat × Option Nat => z.2.1) (Outcome.ok.inj e)
      simp at this
  · intro h
    have hb : isPowerOfTwo b = true := by rcases h with rfl | rfl | rfl <;> decide
    refine ⟨s, none, ?_⟩
    unfold exportPosixMemalign
    rw [if_pos ⟨(pow2_mod8 hb).2 h, hb⟩]

/-- C32. `ENOMEM` (12) is never reported. -/
theorem C32_no_enomem (C : Config) (s s' : PS) (t b n : Nat) (x : Option Nat) :
    exportPosixMemalign C s t b n ≠ .ok (s', 12, x) ∧ sctkPosixMemalign C s t b n ≠ .ok (s', 12, x) := by
  constructor
  · intro e
    unfold exportPosixMemalign at e
    split at e
    · have := congrArg (fun z : PS × Nat × Option Nat => z.2.1) (Outcome.ok.inj e)
      simp at this
    · obtain ⟨⟨u, v⟩, _, e⟩ := Outcome.bind_eq_ok e
      simp only [Outcome.pure_eq] at e
      have := congrArg (fun z : PS × Nat × Option Nat => z.2.1) (Outcome.ok.inj e)
      simp at this
  · intro e
    unfold sctkPosixMemalign at e
    obtain ⟨⟨u, v⟩, _, e⟩ := Outcome.bind_eq_ok e
    simp only [Outcome.pure_eq] at e
    have := congrArg (fun z : PS × Nat × Option Nat => z.2.1) (Outcome.ok.inj e)
    simp at this

/-- C32 is false: with boundary 24, which is no power of two, no error is reported. -/
theorem C32_refuted (C : Config) (s : PS) (t n : Nat) :
    ¬ (∃ k, 24 = 2 ^ k) ∧ ∀ s' x, exportPosixMemalign C s t 24 n ≠ .ok (s', 22, x) := by
  constructor
  · rintro ⟨k, hk⟩
    have h5 : k < 5 := by
      by_contra h
      have := Nat.pow_le_pow_right (n := 2) (by omega) (Nat.le_of_not_lt h)
      omega
    have : ∀ k < 5, 24 ≠ 2 ^ k := by decide
    exact this k h5 hk
  · intro s' x e
    have := (C32_einval C s t 24 n).1 ⟨s', x, e⟩
    omega

/-- C32 is false: boundary 0, which is no power of two, gives a block. -/
theorem C32_refuted_zero {C : Config} {X : POp → Prop} {s : PS} {G : PSpec} {t n : Nat} (hf : C.reallocFactor ≠ 0)
    (hr : PReach C X s G) (hv : PValid s G (.memalign t 0 n)) (hm : OpMem s (.memalign t 0 n)) :
    ∃ s' r, exportPosixMemalign C s t 0 n = .ok (s', 0, some r) ∧ r ≠ 0 := by
  obtain ⟨s', r, e, k⟩ := C30_calls_partial hf hr hv hm
  refine ⟨s', r, ?_, (k.memalign _ _ _ rfl).1⟩
  unfold exportPosixMemalign
  rw [if_neg (fun h => h.1 rfl)]
  have e : posixMemalign C s t 0 n = .ok (s', r) := e
  rw [e]
  rfl

/-- C32, for the boundaries that are powers of two and multiples of 8, when the kernel has memory: 0 is reported with an
aligned block. Missing: the errors (`C32_refuted`, `C32_no_enomem`). -/
theorem C32_memalign_partial {C : Config} {X : POp → Prop} {s : PS} {G : PSpec} {t k n : Nat} (hf : C.reallocFactor ≠ 0)
    (hr : PReach C X s G) (hk : 3 ≤ k) (hv : PValid s G (.memalign t (2 ^ k) n)) (hm : OpMem s (.memalign t (2 ^ k) n)) :
    ∃ s' r, exportPosixMemalign C s t (2 ^ k) n = .ok (s', 0, some r) ∧ r ≠ 0 ∧ 2 ^ k ∣ r ∧
      ∀ l ∈ G.live, PBlock.Disj ⟨t, r, n, false⟩ l := by
  have h1 : 1 < 2 ^ k := Nat.one_lt_two_pow (by omega)
  rcases pstep (C := C) hf (hr.inv (cl := False) hf False.elim) hv False.elim with ⟨h, _⟩ | ⟨s', r, e, I, k', _⟩
  · exact absurd hm h
  · obtain ⟨a, b, _⟩ := k'.memalign _ _ _ rfl
    refine ⟨s', r, ?_, a, b h1, fun l hl => ?_⟩
    · unfold exportPosixMemalign
      rw [if_neg (fun h => h.1 (by
        obtain ⟨j, rfl⟩ : ∃ j, k = j + 3 := ⟨k - 3, by omega⟩
        rw [pow_add]; exact Nat.mul_mod_left _ _))]
      have e : posixMemalign C s t (2 ^ k) n = .ok (s', r) := e
      rw [e]
      rfl
    · have hd := I.disj.1
      unfold PSpec.after PSpec.add at hd
      simp only at hd
      rw [if_neg a] at hd
      have := (List.pairwise_cons.1 hd).1 l (List.mem_append_left _ hl)
      rwa [show decide (2 ^ k ≤ 1) = false from decide_eq_false (by omega)] at this

end MpcAlloc

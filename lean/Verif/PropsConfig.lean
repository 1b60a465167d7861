import Verif.ConfigEnv
import Verif.PropsChain
import Verif.PropsShared
import Verif.PosixInv

/-
Property C48: the configuration from the environment.
-/

namespace MpcAlloc

/-! ### Specification -/

/-- A variable that is not set or empty gives the default value, otherwise it is the decimal representation of `n`. -/
def Means (v : Option (List Char)) (dflt n : Nat) : Prop :=
  ((v = none ∨ v = some []) ∧ n = dflt) ∨ v = some (Nat.toDigits 10 n)

/-- A variable that is not set or empty gives false (the default of all of them), otherwise it is `true` or `false`. -/
def MeansBool (v : Option (List Char)) (b : Bool) : Prop :=
  ((v = none ∨ v = some []) ∧ b = false) ∨ v = some (if b then "true".toList else "false".toList)

/-! ### Lemmas -/

theorem leadingDigits_all : ∀ (l : List Char) (acc : Nat), (∀ c ∈ l, c.isDigit) →
    leadingDigits acc l = Nat.ofDigitChars 10 l acc := by
  intro l
  induction l with
  | nil => intro acc _; rfl
  | cons c cs ih =>
    intro acc h
    rw [leadingDigits, if_pos (h c (by simp)), ih _ (fun x hx => h x (by simp [hx])), Nat.ofDigitChars_cons]

theorem atol_digits {n : Nat} (h : n < W63) : atol (Nat.toDigits 10 n) = n := by
  have hd : ∀ c ∈ Nat.toDigits 10 n, c.isDigit := fun c hc => Nat.isDigit_of_mem_toDigits (by omega) (by omega) hc
  have hv : leadingDigits 0 (Nat.toDigits 10 n) = n := by
    rw [leadingDigits_all _ _ hd, Nat.ofDigitChars_ten_toDigits]
  unfold atol
  match hl : Nat.toDigits 10 n with
  | [] => exact absurd hl Nat.toDigits_ne_nil
  | c :: cs =>
    have hc : c.isDigit := hd c (by rw [hl]; simp)
    have hr : 48 ≤ c.toNat ∧ c.toNat ≤ 57 := by
      simp only [Char.isDigit, Bool.and_eq_true, decide_eq_true_eq] at hc
      exact ⟨hc.1, hc.2⟩
    have hs : isSpaceC c = false := by
      unfold isSpaceC
      simp
      omega
    rw [List.dropWhile_cons_of_neg (by rw [hs]; simp)]
    rw [hl] at hv
    split
    · rename_i h1; cases h1; exact absurd hr (by decide)
    · rename_i h1; cases h1; exact absurd hr (by decide)
    · rw [hv]; omega

theorem boolFromEnv_means {E : Environ} {name : String} {b : Bool} (h : MeansBool (E name) b) :
    boolFromEnv E name false = .ok b := by
  unfold boolFromEnv
  rcases h with ⟨h | h, rfl⟩ | h
  · rw [h]
  · rw [h]; rfl
  · rw [h]
    cases b <;> rfl

theorem sizeFromEnv_means {E : Environ} {name : String} {dflt n f : Nat} (h : Means (E name) dflt n) (hn : n < W63)
    (hf : n * f < W64) : sizeFromEnv E name (dflt * f) f = n * f := by
  unfold sizeFromEnv
  rcases h with ⟨h | h, rfl⟩ | h
  · rw [h]
  · rw [h]; rfl
  · rw [h]
    simp only
    rw [if_neg Nat.toDigits_ne_nil, atol_digits hn]
    unfold toSize
    rw [← Int.natCast_mul, Int.emod_eq_of_lt (by omega) (by exact_mod_cast hf)]
    rfl

theorem toInt32_small {n : Nat} (h : n < 2147483648) : toInt32 n = n := by
  unfold toInt32
  rw [Nat.mod_eq_of_lt (by omega), if_pos h]
  omega

/-! ### C48 -/

/-- **C48** (partial: decimal numbers that do not overflow; see `C48_refuted` for what else is accepted). The
configuration has the values of the environment: sizes in MB, and the default values of sctk_alloc_config.c where a
variable is missing or empty. -/
theorem C48_values_partial {E : Environ} {pc st rr mi : Bool} {kx km th fa ms : Nat}
    (h1 : MeansBool (E "MPCALLOC_PRINT_CONFIG") pc) (h2 : MeansBool (E "MPCALLOC_NUMA_STRICT") st)
    (h3 : MeansBool (E "MPCALLOC_NUMA_ROUND_ROBIN") rr) (h4 : MeansBool (E "MPCALLOC_NUMA_MIGRATION") mi)
    (h5 : Means (E "MPCALLOC_KEEP_MAX") 8 kx) (b5 : kx < 2 ^ 44) (h6 : Means (E "MPCALLOC_KEEP_MEM") 512 km)
    (b6 : km < 2 ^ 44) (h7 : Means (E "MPCALLOC_REALLOC_THREASHOLD") 50 th) (b7 : th < 2 ^ 44)
    (h8 : Means (E "MPCALLOC_REALLOC_FACTOR") 2 fa) (b8 : fa < 2 ^ 31) (h9 : Means (E "MPCALLOC_MM_SOURCES") 4 ms)
    (b9 : ms < 2 ^ 31) :
    ∃ c, configInit E = .ok c ∧ c.printConfig = pc ∧ c.roundRobin = rr ∧ c.migration = mi ∧ c.mmSources = ms ∧
      c.config = ⟨fa, th * 2 ^ 20, kx * 2 ^ 20, km * 2 ^ 20, st⟩ := by
  have e5 := sizeFromEnv_means (f := 1048576) h5 (by omega) (by omega)
  have e6 := sizeFromEnv_means (f := 1048576) h6 (by omega) (by omega)
  have e7 := sizeFromEnv_means (f := 1048576) h7 (by omega) (by omega)
  have e8 := sizeFromEnv_means (f := 1) h8 (by omega) (by omega)
  have e9 := sizeFromEnv_means (f := 1) h9 (by omega) (by omega)
  refine ⟨⟨pc, st, rr, mi, kx * 1048576, km * 1048576, th * 1048576, fa, ms⟩, ?_, rfl, rfl, rfl, rfl, ?_⟩
  · unfold configInit
    simp only [staticDefaults]
    rw [boolFromEnv_means h1, Outcome.ok_bind, boolFromEnv_means h2, Outcome.ok_bind, boolFromEnv_means h3,
      Outcome.ok_bind, boolFromEnv_means h4, Outcome.ok_bind, Outcome.pure_eq]
    have t2 : toSize 2 = 2 * 1 := rfl
    have t4 : toSize 4 = 4 * 1 := rfl
    rw [t2, t4, e8, e9, toInt32_small (by omega), toInt32_small (by omega)]
    simp only [Nat.mul_one]
    have k5 : sizeFromEnv E "MPCALLOC_KEEP_MAX" (8 * 1024 * 1024) (1024 * 1024) = kx * 1048576 := e5
    have k6 : sizeFromEnv E "MPCALLOC_KEEP_MEM" (512 * 1024 * 1024) (1024 * 1024) = km * 1048576 := e6
    have k7 : sizeFromEnv E "MPCALLOC_REALLOC_THREASHOLD" (50 * 1024 * 1024) (1024 * 1024) = th * 1048576 := e7
    rw [k5, k6, k7]
  · unfold EnvConfig.config toSize
    simp only
    rw [Int.emod_eq_of_lt (by omega) (by omega)]
    simp

/-- **C48** (partial: as above, and a factor that is not 0). With the configuration of the environment every valid call goes
through; without the condition on the factor this is false, see `C48_refuted`. -/
theorem C48_usable_partial {σ : Type} {E : Environ} {c : EnvConfig} {fa : Nat} (e : configInit E = .ok c)
    (h8 : Means (E "MPCALLOC_REALLOC_FACTOR") 2 fa) (b8 : fa < 2 ^ 31) (h0 : fa ≠ 0) {S : Source σ} {pb : Nat} {s : CS σ}
    {L : List Block} {B : List (Nat × Nat)} {op : Op} (h : Reach S c.config pb s L B) (hv : ValidOp pb L B op)
    (hr : RegOK s op) : ∃ s' r, exec S c.config s op = .ok (s', r) := by
  have hf : c.config.reallocFactor = fa := by
    unfold configInit at e
    obtain ⟨_, _, e⟩ := Outcome.bind_eq_ok e
    obtain ⟨_, _, e⟩ := Outcome.bind_eq_ok e
    obtain ⟨_, _, e⟩ := Outcome.bind_eq_ok e
    obtain ⟨_, _, e⟩ := Outcome.bind_eq_ok e
    rw [Outcome.pure_eq] at e
    cases e
    have e8 := sizeFromEnv_means (f := 1) h8 (by omega) (by omega)
    have t2 : toSize staticDefaults.factor = 2 * 1 := rfl
    unfold EnvConfig.config
    simp only
    rw [t2, e8, toInt32_small (by omega)]
    unfold toSize
    rw [Int.emod_eq_of_lt (by omega) (by omega)]
    simp
  obtain ⟨s', r, e, _⟩ := C06_valid_calls_succeed_partial (by rw [hf]; exact h0) h hv hr
  exact ⟨s', r, e⟩

/-- **C48** (the flags). A flag with a text that is not empty and neither `true` nor `false` is refused: the start-up stops
with a message, whatever the other variables. -/
theorem C48_flags_refused {E : Environ} {name : String} {v : List Char}
    (hn : name ∈ ["MPCALLOC_PRINT_CONFIG", "MPCALLOC_NUMA_STRICT", "MPCALLOC_NUMA_ROUND_ROBIN", "MPCALLOC_NUMA_MIGRATION"])
    (he : E name = some v) (h0 : v ≠ []) (ht : v ≠ "true".toList) (hf : v ≠ "false".toList) : configInit E = .abort := by
  have hb : ∀ d, boolFromEnv E name d = .abort := by
    intro d
    unfold boolFromEnv
    rw [he]
    simp only
    rw [if_neg h0, if_neg (show v ≠ ['t', 'r', 'u', 'e'] from ht), if_neg (show v ≠ ['f', 'a', 'l', 's', 'e'] from hf)]
  have hc : ∀ n d, boolFromEnv E n d = .abort ∨ ∃ b, boolFromEnv E n d = .ok b := by
    intro n d
    unfold boolFromEnv
    split
    · exact Or.inr ⟨_, rfl⟩
    · split
      · exact Or.inr ⟨_, rfl⟩
      · split
        · exact Or.inr ⟨_, rfl⟩
        · split
          · exact Or.inr ⟨_, rfl⟩
          · exact Or.inl rfl
  unfold configInit
  simp only [List.mem_cons, List.not_mem_nil, or_false] at hn
  rcases hc "MPCALLOC_PRINT_CONFIG" staticDefaults.printConfig with e1 | ⟨b1, e1⟩
  · simp only [e1]; rfl
  · simp only [e1, Outcome.ok_bind]
    rcases hc "MPCALLOC_NUMA_STRICT" staticDefaults.strict with e2 | ⟨b2, e2⟩
    · simp only [e2]; rfl
    · simp only [e2, Outcome.ok_bind]
      rcases hc "MPCALLOC_NUMA_ROUND_ROBIN" staticDefaults.roundRobin with e3 | ⟨b3, e3⟩
      · simp only [e3]; rfl
      · simp only [e3, Outcome.ok_bind]
        rcases hc "MPCALLOC_NUMA_MIGRATION" staticDefaults.migration with e4 | ⟨b4, e4⟩
        · simp only [e4]; rfl
        · rcases hn with rfl | rfl | rfl | rfl
          · rw [hb] at e1; cases e1
          · rw [hb] at e2; cases e2
          · rw [hb] at e3; cases e3
          · rw [hb] at e4; cases e4

/-- An environment with one variable. -/
def oneVar (name value : String) : Environ := fun x => if x = name then some value.toList else none

/-- The hypotheses are met: 64 MB kept at most, default values elsewhere. -/
example : ∃ c, configInit (oneVar "MPCALLOC_KEEP_MEM" "64") = .ok c ∧
    c.config = { Config.default with keepMem := 64 * 2 ^ 20 } := by
  obtain ⟨c, e, _, _, _, _, h⟩ := C48_values_partial (E := oneVar "MPCALLOC_KEEP_MEM" "64") (pc := false) (st := false)
    (rr := false) (mi := false) (kx := 8) (km := 64) (th := 50) (fa := 2) (ms := 4)
    (Or.inl ⟨Or.inl rfl, rfl⟩) (Or.inl ⟨Or.inl rfl, rfl⟩) (Or.inl ⟨Or.inl rfl, rfl⟩) (Or.inl ⟨Or.inl rfl, rfl⟩)
    (Or.inl ⟨Or.inl rfl, rfl⟩) (by omega) (Or.inr rfl) (by omega) (Or.inl ⟨Or.inl rfl, rfl⟩) (by omega)
    (Or.inl ⟨Or.inl rfl, rfl⟩) (by omega) (Or.inl ⟨Or.inl rfl, rfl⟩) (by omega)
  exact ⟨c, e, h⟩

example : configInit (oneVar "MPCALLOC_NUMA_STRICT" "yes") = .abort :=
  C48_flags_refused (name := "MPCALLOC_NUMA_STRICT") (v := "yes".toList) (by simp) rfl (by decide) (by decide) (by decide)

/-- A chain with one block of 100 bytes, whatever the configuration. -/
theorem one_block_any : ∃ (s : CS Unit) (A : AHeap) (d : Ck), (∀ C, Reach S0 C 4096 s [⟨d.uptr, 100, true⟩] [(8192, 4096)]) ∧
    HInv 4096 s [⟨d.uptr, 100, true⟩] [(8192, 4096)] A ∧ A.Used d ∧ d.size ≤ 4096 ∧ 116 ≤ d.size := by
  obtain ⟨s, e, H⟩ := init_inv (addr := 4096) (pb := 4096) w0 true false true (by omega) (by omega) w0_regs
  have hnm : s.c.noRegion = true ∧ s.c.noMerge = false := by
    obtain ⟨s', e', _, _, _, _, _, g1, g2, _⟩ := chainBaseInit_ok w0 (addr := 4096) (pb := 4096) true false true
      (by omega) (by omega)
    unfold userInit at e
    rw [e', Outcome.ok_bind, if_neg (by simp), Outcome.pure_eq, Outcome.ok_bind] at e
    cases e
    exact ⟨g2, g1⟩
  have hv : ValidOp 4096 [] [] (.refill 8192 4096) :=
    ⟨by omega, by omega, by omega, by omega, by omega, by omega, by omega, by simp⟩
  have hr : RegOK s (.refill 8192 4096) := by
    intro h; rw [hnm.1] at h; cases h
  obtain ⟨r, A', hs⟩ := step_ok S0 Config.default default_factor H.wf H.bufs H.live hv _ H.noAdj
  obtain ⟨s', e', H', g1, _⟩ := hs s H rfl hr
  have R1 : ∀ C, Reach S0 C 4096 s' [] [(8192, 4096)] := by
    intro C
    have R0 : Reach S0 C 4096 s [] [] := .init (by omega) (by omega) w0_regs e
    have := R0.step hv hr (show exec S0 C s (.refill 8192 4096) = _ from e')
    simpa [account, accountBufs] using this
  obtain ⟨A, H1⟩ := reach_inv default_factor (R1 Config.default)
  have hseg := H1.one_seg (g1.trans hnm.2)
  have hF : A.Has ⟨8192 + 32, 4096 - 48, .free⟩ := ⟨_, by rw [hseg]; exact List.mem_singleton.2 rfl, by simp⟩
  obtain ⟨s2, A2, c, d, e2, G, hne, _, H2, _⟩ := alloc_some (b := 0) (n := 100) default_factor (R1 Config.default) H1
    (by unfold GoodBound; omega) (by omega) hF rfl (by simp only; omega) (by simp)
  have hu := (G.used d).2 (Or.inr rfl)
  have hl := H2.wf.has_range hu.1
  obtain ⟨sg, hsg, d1, d2⟩ := seg_of_has H2.wf hu.1
  rw [H2.bufs, List.mem_singleton] at hsg
  subst hsg
  refine ⟨s2, A2, d, fun C => ?_, H2, hu, by simp only at d1 d2; omega, ?_⟩
  · have := (R1 C).step (op := .alloc 0 100) ⟨by unfold GoodBound; omega, Or.inl (by simp)⟩ trivial e2
    simpa [account, accountBufs, hne] using this
  · have := G.fit
    have hal : alignedSize 0 100 = 100 := by decide
    have hu := H2.wf.uptr_ge d
    omega

/-- **C48** is false of the code: `MPCALLOC_REALLOC_FACTOR` set to 0, to a text that is not a number or to 2^32 is accepted,
and then realloc of a live block to a smaller size divides by zero. -/
theorem C48_refuted : ∀ v ∈ ["0", "two", "4294967296"], ∃ c, configInit (oneVar "MPCALLOC_REALLOC_FACTOR" v) = .ok c ∧
    ∃ (s : CS Unit) (p : Nat), Reach S0 c.config 4096 s [⟨p, 100, true⟩] [(8192, 4096)] ∧
      ValidOp 4096 [⟨p, 100, true⟩] [(8192, 4096)] (.realloc p 0 50) ∧ exec S0 c.config s (.realloc p 0 50) = .ub := by
  intro v hv
  have key : ∀ C : Config, C.reallocFactor = 0 → C.reallocThreshold = 50 * 1024 * 1024 →
      ∃ (s : CS Unit) (p : Nat), Reach S0 C 4096 s [⟨p, 100, true⟩] [(8192, 4096)] ∧
      ValidOp 4096 [⟨p, 100, true⟩] [(8192, 4096)] (.realloc p 0 50) ∧ exec S0 C s (.realloc p 0 50) = .ub := by
    intro C h0 ht
    obtain ⟨s, A, d, R, H, hu, hle, hge⟩ := one_block_any
    refine ⟨s, d.uptr, R C, ⟨by unfold GoodBound; omega, Or.inl (by simp), Or.inr ⟨_, List.mem_singleton.2 rfl, rfl,
      Or.inr (Or.inl rfl)⟩⟩, ?_⟩
    obtain ⟨w, e1, e2, e3⟩ := getChunk_used H.wf H.inv.mem hu
    have e1' : getChunk s.w.mem d.uptr = .ok w := e1
    have e3' : getUnpaddedSize s.w.mem w = .ok d.size := e3
    have := H.wf.uptr_ge d
    show chainRealloc S0 C 0 s d.uptr 50 = .ub
    unfold chainRealloc
    rw [if_neg (by omega), if_neg (by omega), if_neg (by omega), e1', Outcome.ok_bind, if_pos e2, e3', Outcome.ok_bind]
    simp only
    rw [show sub64 d.size 16 = d.size - 16 from sub64_eq (by omega) (by omega),
      if_pos ⟨h0, by omega, by rw [sub64_eq (by omega) (by omega), ht]; omega⟩]
  simp only [List.mem_cons, List.not_mem_nil, or_false] at hv
  rcases hv with rfl | rfl | rfl
  · exact ⟨_, rfl, key _ (by decide) rfl⟩
  · exact ⟨_, rfl, key _ (by decide) rfl⟩
  · exact ⟨_, rfl, key _ (by decide) rfl⟩

end MpcAlloc

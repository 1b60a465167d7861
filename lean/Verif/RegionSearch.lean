import Verif.SizeClass

/-
The search of the bloc of an address (`sctk_alloc_region_get_macro_bloc`) while other threads register and remove blocs
(/repo/src/sctk_allocator.c 2281-2339, 2391-2418), as steps of interleaving threads: one step for each access to an entry
of the tables or to the size of a bloc. Region.lean has the same functions for one thread at a time. The tables of the
regions exist from the start (their creation: RegionInit.lean) and stores are not delayed. With `once` the reads of one
entry in a row are one load, as compilers usually make them; without it each of them is a load, as they are written.
-/

namespace MpcAlloc
namespace RegionSearch

/-- Where a search is.
* `e1`, `e2`, `e3`: at the reads of `entry->macro_bloc` of the entry of `ptr`: `== NULL` and `> ptr` (2402), the result (2411);
* `f1`, `f2`, `f3`, `f4 b`, `f5`: at those of the entry of `ptr - 2 MB`: `== NULL` (2404), `ptr >` (2406), the base of the sum
  (2406), the address of the header (2406, `b` is the base), the result (2407);
* `g b v`: at the read of the size in the header of the bloc `v` (2406). -/
inductive Spot
  | e1
  | e2
  | e3
  | f1
  | f2
  | f3
  | f4 (b : Nat)
  | f5
  | g (b v : Nat)
deriving DecidableEq

/-- What a thread is doing.
* `reg b j w`: in the loop of `sctk_alloc_region_set_entry` for the bloc `b`, turn `j`, at the test (2334) or, with `w`, at
  the store (2336);
* `unreg b j w`: in the loop of `sctk_alloc_region_unset_entry`, at the test (2294) or the store (2295);
* `find p c`: in a search for the address `p`. -/
inductive Pc
  | reg (b j : Nat) (w : Bool)
  | unreg (b j : Nat) (w : Bool)
  | find (p : Nat) (c : Spot)
deriving DecidableEq

/-- The entries (numbered from address 0), the sizes in the headers of the blocs, the threads. Not in the code: the blocs
that are registered and not being removed. -/
structure S where
  ent : Nat → Nat
  size : Nat → Nat
  pc : Nat → Option Pc
  live : Nat → Prop

def start : S := ⟨fun _ => 0, fun _ => 0, fun _ => none, fun _ => False⟩

def upd {α : Type} (f : Nat → α) (t : Nat) (x : α) : Nat → α := fun u => if u = t then x else f u

theorem upd_same {α : Type} (f : Nat → α) (t : Nat) (x : α) : upd f t x t = x := if_pos rfl

theorem upd_ne {α : Type} {f : Nat → α} {t : Nat} {x : α} {u : Nat} (h : u ≠ t) : upd f t x u = f u := if_neg h

def S.go (s : S) (t : Nat) (c : Option Pc) : S := { s with pc := upd s.pc t c }

/-- The thread is registering or removing the bloc. -/
def Pc.Of (b : Nat) : Pc → Prop
  | .reg c _ _ => c = b
  | .unreg c _ _ => c = b
  | .find _ _ => False

/-- The memory of the bloc is that of a bloc: it is registered, or being registered or removed. -/
def S.Held (s : S) (b : Nat) : Prop := s.live b ∨ ∃ t c, s.pc t = some c ∧ c.Of b

/-- The next turn of the loop of the registration (2332), or its end. -/
def S.regNext (s : S) (t b j : Nat) : S :=
  if b + j * MB2 < b + s.size b then s.go t (some (.reg b j false))
  else { s with live := fun c => c = b ∨ s.live c }.go t none

/-- The next turn of the loop of the removal (2291), or its end. -/
def S.unregNext (s : S) (t b j : Nat) : S :=
  if b + j * MB2 < b + s.size b then s.go t (some (.unreg b j false)) else s.go t none

/-- The step of a search of the thread `t` for `p`, and its result when it ends. The read of the size of a bloc whose memory
was given back is undefined, as is that of `NULL`. Addresses are below 2^48, so the sum of 2406 does not overflow. -/
inductive Find (once : Bool) (s : S) (t p : Nat) : Spot → Outcome (S × Option Nat) → Prop
  /-- 2402, all reads in one. -/
  | e1_once : once = true → Find once s t p .e1
      (if (s.ent (p / MB2) = 0 ∨ s.ent (p / MB2) > p) ∧ p > MB2 then .ok (s.go t (some (.find p .f1)), none)
       else .ok (s.go t none, some (s.ent (p / MB2))))
  | e1 : once = false → Find once s t p .e1
      (if s.ent (p / MB2) = 0 then .ok (s.go t (some (.find p (if p > MB2 then .f1 else .e3))), none)
       else .ok (s.go t (some (.find p .e2)), none))
  | e2 : Find once s t p .e2
      (.ok (s.go t (some (.find p (if s.ent (p / MB2) > p ∧ p > MB2 then .f1 else .e3))), none))
  | e3 : Find once s t p .e3 (.ok (s.go t none, some (s.ent (p / MB2))))
  | f1_once : once = true → Find once s t p .f1
      (if s.ent ((p - MB2) / MB2) ≠ 0 ∧ p > s.ent ((p - MB2) / MB2) then
        .ok (s.go t (some (.find p (.g (s.ent ((p - MB2) / MB2)) (s.ent ((p - MB2) / MB2))))), none)
       else .ok (s.go t none, some 0))
  | f1 : once = false → Find once s t p .f1
      (if s.ent ((p - MB2) / MB2) = 0 then .ok (s.go t none, some 0) else .ok (s.go t (some (.find p .f2)), none))
  | f2 : Find once s t p .f2
      (if p > s.ent ((p - MB2) / MB2) then .ok (s.go t (some (.find p .f3)), none) else .ok (s.go t none, some 0))
  | f3 : Find once s t p .f3 (.ok (s.go t (some (.find p (.f4 (s.ent ((p - MB2) / MB2))))), none))
  | f4 {b : Nat} : Find once s t p (.f4 b) (.ok (s.go t (some (.find p (.g b (s.ent ((p - MB2) / MB2))))), none))
  | g_ub {b v : Nat} : v = 0 ∨ ¬ s.Held v → Find once s t p (.g b v) .ub
  | g {b v : Nat} : v ≠ 0 → s.Held v → Find once s t p (.g b v)
      (if p < b + s.size v then
        (if once = true then .ok (s.go t none, some v) else .ok (s.go t (some (.find p .f5)), none))
       else .ok (s.go t none, some 0))
  | f5 : Find once s t p .f5 (.ok (s.go t none, some (s.ent ((p - MB2) / MB2))))

/-- One step of thread `t` that is in a call. -/
inductive Step (once : Bool) (s : S) (t : Nat) : Outcome (S × Option Nat) → Prop
  /-- 2334: the entry must be free. -/
  | regTest {b j : Nat} : s.pc t = some (.reg b j false) → Step once s t
      (if s.ent ((b + j * MB2) / MB2) ≠ 0 then .abort else .ok (s.go t (some (.reg b j true)), none))
  /-- 2336-2337. -/
  | regStore {b j : Nat} : s.pc t = some (.reg b j true) → Step once s t
      (.ok ({ s with ent := upd s.ent ((b + j * MB2) / MB2) b }.regNext t b (j + 1), none))
  /-- 2294: an entry of another bloc is left. -/
  | unregTest {b j : Nat} : s.pc t = some (.unreg b j false) → Step once s t
      (.ok (if s.ent ((b + j * MB2) / MB2) = b then s.go t (some (.unreg b j true)) else s.unregNext t b (j + 1), none))
  /-- 2295-2296. -/
  | unregStore {b j : Nat} : s.pc t = some (.unreg b j true) → Step once s t
      (.ok ({ s with ent := upd s.ent ((b + j * MB2) / MB2) 0 }.unregNext t b (j + 1), none))
  | find {p : Nat} {c : Spot} {r : Outcome (S × Option Nat)} : s.pc t = some (.find p c) → Find once s t p c r →
      Step once s t r

/-- What happens: thread `t` begins a call, or makes a step and may end its search with a result.
* `reg`: a new bloc `b` of `n` bytes, a multiple of 2 MB (the requests of the sources are rounded), in memory that is not
  that of another bloc;
* `unreg`: a registered bloc is removed, before its memory is given back (1352, 1566);
* `find`: an address, any. -/
inductive Act (once : Bool) (s : S) (t : Nat) : Option Nat → S → Prop
  | reg {b n : Nat} : s.pc t = none → b ≠ 0 → 0 < n → n % MB2 = 0 →
      (∀ c, s.Held c → b + n ≤ c ∨ c + s.size c ≤ b) →
      Act once s t none ({ s with size := upd s.size b n }.go t (some (.reg b 0 false)))
  | unreg {b : Nat} : s.pc t = none → s.live b →
      Act once s t none ({ s with live := fun c => c ≠ b ∧ s.live c }.go t (some (.unreg b 0 false)))
  | find {p : Nat} : s.pc t = none → Act once s t none (s.go t (some (.find p .e1)))
  | step {s' : S} {x : Option Nat} : Step once s t (.ok (s', x)) → Act once s t x s'

/-- Any number of threads. -/
inductive Reach (once : Bool) : S → Prop
  | start : Reach once start
  | act {s s' : S} {t : Nat} {x : Option Nat} : Reach once s → Act once s t x s' → Reach once s'

/-! ## Invariant -/

/-- What the entries of the bloc of a thread are. -/
def Pc.Ok (s : S) : Pc → Prop
  | .reg b j _ => j * MB2 < s.size b ∧ ∀ i, i * MB2 < s.size b → s.ent (b / MB2 + i) = if i < j then b else 0
  | .unreg b j _ => j * MB2 < s.size b ∧ ∀ i, i * MB2 < s.size b → s.ent (b / MB2 + i) = if i < j then 0 else b
  | .find _ _ => True

structure Inv (s : S) : Prop where
  shape : ∀ b, s.Held b → b ≠ 0 ∧ 0 < s.size b ∧ s.size b % MB2 = 0
  disj : ∀ b c, s.Held b → s.Held c → b ≠ c → b + s.size b ≤ c ∨ c + s.size c ≤ b
  alone : ∀ b t c, s.live b → s.pc t = some c → ¬ c.Of b
  uniq : ∀ b t u c d, s.pc t = some c → s.pc u = some d → c.Of b → d.Of b → t = u
  own : ∀ k, s.ent k ≠ 0 → s.Held (s.ent k) ∧ ∃ i, i * MB2 < s.size (s.ent k) ∧ k = s.ent k / MB2 + i
  live : ∀ b, s.live b → ∀ i, i * MB2 < s.size b → s.ent (b / MB2 + i) = b
  pcs : ∀ t c, s.pc t = some c → c.Ok s

theorem Inv.start : Inv start := by
  refine ⟨?_, ?_, ?_, ?_, ?_, ?_, ?_⟩ <;> simp [RegionSearch.start, S.Held]

/-- Different blocs have different entries. -/
theorem Inv.slot {s : S} (I : Inv s) {b c i j : Nat} (hb : s.Held b) (hc : s.Held c) (hi : i * MB2 < s.size b)
    (hj : j * MB2 < s.size c) (h : b / MB2 + i = c / MB2 + j) : b = c ∧ i = j := by
  have h1 := I.shape b hb
  have h2 := I.shape c hc
  have : b = c := by
    apply Classical.byContradiction
    intro hne
    rcases I.disj b c hb hc hne with h3 | h3 <;> omega
  subst this
  exact ⟨rfl, by omega⟩

/-- The thread is not registering or removing a bloc. -/
def Free (c : Option Pc) : Prop := ∀ b d, c = some d → ¬ d.Of b

theorem go_held {s : S} {t : Nat} {c : Option Pc} (h : Free (s.pc t)) (h' : Free c) (b : Nat) :
    (s.go t c).Held b ↔ s.Held b := by
  unfold S.Held S.go
  refine or_congr Iff.rfl ⟨?_, ?_⟩
  · rintro ⟨u, d, hu, hd⟩
    by_cases e : u = t
    · subst e
      simp only [upd_same] at hu
      exact absurd hd (h' b d hu)
    · simp only [upd_ne e] at hu
      exact ⟨u, d, hu, hd⟩
  · rintro ⟨u, d, hu, hd⟩
    have e : u ≠ t := by rintro rfl; exact h b d hu hd
    exact ⟨u, d, by simp only [upd_ne e]; exact hu, hd⟩

/-- A step of a search. -/
theorem Inv.quiet {s : S} (I : Inv s) {t : Nat} {c : Option Pc} (h : Free (s.pc t)) (h' : Free c) : Inv (s.go t c) := by
  have hh := go_held h h'
  have pcs : ∀ u d b, (s.go t c).pc u = some d → d.Of b → s.pc u = some d := by
    intro u d b hu hd
    by_cases e : u = t
    · subst e
      simp only [S.go, upd_same] at hu
      exact absurd hd (h' b d hu)
    · simpa only [S.go, upd_ne e] using hu
  refine ⟨fun b hb => I.shape b ((hh b).1 hb), fun b d hb hd => I.disj b d ((hh b).1 hb) ((hh d).1 hd), ?_, ?_, ?_,
    I.live, ?_⟩
  · intro b u d hb hu hd
    exact I.alone b u d hb (pcs u d b hu hd) hd
  · intro b u v d e hu hv hd he
    exact I.uniq b u v d e (pcs u d b hu hd) (pcs v e b hv he) hd he
  · intro k hk
    obtain ⟨h1, h2⟩ := I.own k hk
    exact ⟨(hh _).2 h1, h2⟩
  · intro u d hu
    cases d with
    | find p x => trivial
    | reg b j w => exact I.pcs u _ (pcs u _ b hu rfl)
    | unreg b j w => exact I.pcs u _ (pcs u _ b hu rfl)

/-- A registration begins. -/
theorem Inv.reg {s : S} (I : Inv s) {t b n : Nat} (ht : s.pc t = none) (hb : b ≠ 0) (h0 : 0 < n) (hn : n % MB2 = 0)
    (hd : ∀ c, s.Held c → b + n ≤ c ∨ c + s.size c ≤ b) :
    Inv ({ s with size := upd s.size b n }.go t (some (.reg b 0 false))) := by
  generalize e : ({ s with size := upd s.size b n }.go t (some (.reg b 0 false))) = s'
  have hE : s'.ent = s.ent := by rw [← e]; rfl
  have hS : s'.size = upd s.size b n := by rw [← e]; rfl
  have hP : s'.pc = upd s.pc t (some (.reg b 0 false)) := by rw [← e]; rfl
  have hL : s'.live = s.live := by rw [← e]; rfl
  clear e
  have hnew : ¬ s.Held b := by
    intro h
    have := I.shape b h
    rcases hd b h with h1 | h1 <;> omega
  have ne : ∀ c, s.Held c → c ≠ b := by rintro c hc rfl; exact hnew hc
  have hS' : ∀ c, s.Held c → s'.size c = s.size c := by intro c hc; rw [hS, upd_ne (ne c hc)]
  have hSb : s'.size b = n := by rw [hS, upd_same]
  have pcs : ∀ u d, s'.pc u = some d → (u = t ∧ d = .reg b 0 false) ∨ (u ≠ t ∧ s.pc u = some d) := by
    intro u d hu
    rw [hP] at hu
    by_cases e : u = t
    · subst e
      rw [upd_same] at hu
      exact Or.inl ⟨rfl, (Option.some.inj hu).symm⟩
    · rw [upd_ne e] at hu
      exact Or.inr ⟨e, hu⟩
  have held : ∀ c, s'.Held c → c = b ∨ s.Held c := by
    rintro c (h | ⟨u, d, hu, hd⟩)
    · rw [hL] at h; exact Or.inr (Or.inl h)
    · rcases pcs u d hu with ⟨_, rfl⟩ | ⟨_, h⟩
      · exact Or.inl hd.symm
      · exact Or.inr (Or.inr ⟨u, d, h, hd⟩)
  have held' : ∀ c, s.Held c → s'.Held c := by
    rintro c (h | ⟨u, d, hu, hd⟩)
    · exact Or.inl (by rw [hL]; exact h)
    · have e : u ≠ t := by rintro rfl; rw [ht] at hu; cases hu
      exact Or.inr ⟨u, d, by rw [hP, upd_ne e]; exact hu, hd⟩
  refine ⟨?_, ?_, ?_, ?_, ?_, ?_, ?_⟩
  · intro c hc
    rcases held c hc with rfl | hc
    · rw [hSb]; exact ⟨hb, h0, hn⟩
    · rw [hS' c hc]; exact I.shape c hc
  · intro c d hc hd' hne
    rcases held c hc with rfl | hc <;> rcases held d hd' with rfl | hd'
    · exact absurd rfl hne
    · rw [hSb, hS' d hd']; exact hd d hd'
    · rw [hSb, hS' c hc]; exact (hd c hc).symm
    · rw [hS' c hc, hS' d hd']; exact I.disj c d hc hd' hne
  · intro c u d hc hu hd'
    rw [hL] at hc
    rcases pcs u d hu with ⟨_, rfl⟩ | ⟨_, h⟩
    · exact ne c (Or.inl hc) hd'.symm
    · exact I.alone c u d hc h hd'
  · intro c u v d d' hu hv h1 h2
    rcases pcs u d hu with ⟨rfl, rfl⟩ | ⟨_, h⟩ <;> rcases pcs v d' hv with ⟨rfl, rfl⟩ | ⟨_, h'⟩
    · rfl
    · exact absurd h1.symm (ne c (Or.inr ⟨v, d', h', h2⟩))
    · exact absurd h2.symm (ne c (Or.inr ⟨u, d, h, h1⟩))
    · exact I.uniq c u v d d' h h' h1 h2
  · intro k hk
    rw [hE] at hk ⊢
    obtain ⟨h1, h2⟩ := I.own k hk
    rw [hS' _ h1]
    exact ⟨held' _ h1, h2⟩
  · intro c hc i hi
    rw [hL] at hc
    rw [hS' c (Or.inl hc)] at hi
    rw [hE]
    exact I.live c hc i hi
  · intro u d hu
    rcases pcs u d hu with ⟨rfl, rfl⟩ | ⟨_, h⟩
    · refine ⟨by rw [hSb]; omega, fun i hi => ?_⟩
      rw [hSb] at hi
      rw [hE, if_neg (Nat.not_lt_zero i)]
      apply Classical.byContradiction
      intro hk
      obtain ⟨h1, j, h2, h3⟩ := I.own _ hk
      have h4 := I.shape _ h1
      rcases hd _ h1 with h5 | h5 <;> omega
    · have := I.pcs u d h
      cases d with
      | find p x => trivial
      | reg c j w =>
        obtain ⟨h1, h2⟩ := this
        have hc := hS' c (Or.inr ⟨u, _, h, rfl⟩)
        exact ⟨by rw [hc]; exact h1, fun i hi => by rw [hE]; rw [hc] at hi; exact h2 i hi⟩
      | unreg c j w =>
        obtain ⟨h1, h2⟩ := this
        have hc := hS' c (Or.inr ⟨u, _, h, rfl⟩)
        exact ⟨by rw [hc]; exact h1, fun i hi => by rw [hE]; rw [hc] at hi; exact h2 i hi⟩

/-- The entries of the bloc `b` and the place of its thread change: the bloc stays in the hands of `t`, becomes registered,
or is no more. -/
theorem Inv.mine {s s' : S} (I : Inv s) {t b : Nat} {c : Option Pc} (hb : s.Held b)
    (hx : ∀ u d, u ≠ t → s.pc u = some d → ¬ d.Of b) (hf : ∀ a d, s.pc t = some d → d.Of a → a = b)
    (hS : s'.size = s.size) (hP : s'.pc = upd s.pc t c)
    (hE : ∀ k, (∀ i, i * MB2 < s.size b → k ≠ b / MB2 + i) → s'.ent k = s.ent k)
    (hv : ∀ i, i * MB2 < s.size b → s'.ent (b / MB2 + i) = 0 ∨ s'.ent (b / MB2 + i) = b)
    (hc : (∃ d, c = some d ∧ d.Of b ∧ d.Ok s' ∧ ∀ a, s'.live a ↔ a ≠ b ∧ s.live a) ∨
      (c = none ∧ (∀ i, i * MB2 < s.size b → s'.ent (b / MB2 + i) = b) ∧ ∀ a, s'.live a ↔ a = b ∨ s.live a) ∨
      (c = none ∧ (∀ i, i * MB2 < s.size b → s'.ent (b / MB2 + i) = 0) ∧ ∀ a, s'.live a ↔ a ≠ b ∧ s.live a)) :
    Inv s' := by
  have pcs : ∀ u d, s'.pc u = some d → (u = t ∧ c = some d) ∨ (u ≠ t ∧ s.pc u = some d) := by
    intro u d hu
    rw [hP] at hu
    by_cases e : u = t
    · subst e
      rw [upd_same] at hu
      exact Or.inl ⟨rfl, hu⟩
    · rw [upd_ne e] at hu
      exact Or.inr ⟨e, hu⟩
  have mine : ∀ d a, c = some d → d.Of a → a = b := by
    rintro d a rfl hd
    rcases hc with ⟨d', h, h', _⟩ | ⟨h, _⟩ | ⟨h, _⟩
    · cases h
      cases d with
      | find p x => exact hd.elim
      | reg x y z => exact hd.symm.trans h'
      | unreg x y z => exact hd.symm.trans h'
    · cases h
    · cases h
  have liv : ∀ a, a ≠ b → (s'.live a ↔ s.live a) := by
    intro a ha
    rcases hc with ⟨_, _, _, _, h⟩ | ⟨_, _, h⟩ | ⟨_, _, h⟩ <;> rw [h a] <;> simp [ha]
  have held : ∀ a, a ≠ b → (s'.Held a ↔ s.Held a) := by
    intro a ha
    refine or_congr (liv a ha) ⟨?_, ?_⟩
    · rintro ⟨u, d, hu, hd⟩
      rcases pcs u d hu with ⟨_, h⟩ | ⟨_, h⟩
      · exact absurd (mine d a h hd) ha
      · exact ⟨u, d, h, hd⟩
    · rintro ⟨u, d, hu, hd⟩
      have e : u ≠ t := by
        rintro rfl
        exact ha (hf a d hu hd)
      exact ⟨u, d, by rw [hP, upd_ne e]; exact hu, hd⟩
  have hS' : ∀ a, s'.size a = s.size a := fun a => by rw [hS]
  have hh : ∀ a, s'.Held a → s.Held a := by
    intro a ha
    by_cases e : a = b
    · exact e ▸ hb
    · exact (held a e).1 ha
  have keep : ∀ a, s.Held a → a ≠ b → ∀ i, i * MB2 < s.size a → s'.ent (a / MB2 + i) = s.ent (a / MB2 + i) := by
    intro a ha hne i hi
    exact hE _ fun j hj hk => hne (I.slot ha hb hi hj hk).1
  refine ⟨?_, ?_, ?_, ?_, ?_, ?_, ?_⟩
  · intro a ha
    rw [hS']
    exact I.shape a (hh a ha)
  · intro a d ha hd
    rw [hS', hS']
    exact I.disj a d (hh a ha) (hh d hd)
  · intro a u d ha hu hd
    rcases pcs u d hu with ⟨rfl, h⟩ | ⟨hne, h⟩
    · have := mine d a h hd
      subst this
      rcases hc with ⟨d', _, _, _, hl⟩ | ⟨h', _⟩ | ⟨h', _⟩
      · exact ((hl a).1 ha).1 rfl
      · rw [h'] at h; cases h
      · rw [h'] at h; cases h
    · by_cases e : a = b
      · subst e; exact hx u d hne h hd
      · exact I.alone a u d ((liv a e).1 ha) h hd
  · intro a u v d e hu hv' hd he
    rcases pcs u d hu with ⟨rfl, h⟩ | ⟨n1, h⟩ <;> rcases pcs v e hv' with ⟨rfl, h'⟩ | ⟨n2, h'⟩
    · rfl
    · have := mine d a h hd
      subst this
      exact absurd he (hx v e n2 h')
    · have := mine e a h' he
      subst this
      exact absurd hd (hx u d n1 h)
    · exact I.uniq a u v d e h h' hd he
  · intro k hk
    by_cases e : ∃ i, i * MB2 < s.size b ∧ k = b / MB2 + i
    · obtain ⟨i, hi, rfl⟩ := e
      rcases hv i hi with h | h
      · exact absurd h hk
      · rw [h, hS']
        refine ⟨?_, i, hi, rfl⟩
        rcases hc with ⟨d, h1, h2, _⟩ | ⟨_, _, h1⟩ | ⟨_, h1, _⟩
        · exact Or.inr ⟨t, d, by rw [hP, upd_same]; exact h1, h2⟩
        · exact Or.inl ((h1 b).2 (Or.inl rfl))
        · exact absurd (h1 i hi) hk
    · have hk' : s'.ent k = s.ent k := hE k fun i hi hk => e ⟨i, hi, hk⟩
      rw [hk'] at hk ⊢
      obtain ⟨h1, i, h2, h3⟩ := I.own k hk
      have hne : s.ent k ≠ b := by
        intro hb'
        rw [hb'] at h2 h3
        exact e ⟨i, h2, h3⟩
      exact ⟨(held _ hne).2 h1, i, by rw [hS']; exact h2, h3⟩
  · intro a ha i hi
    rw [hS'] at hi
    by_cases e : a = b
    · subst e
      rcases hc with ⟨_, _, _, _, h⟩ | ⟨_, h, _⟩ | ⟨_, _, h⟩
      · exact absurd rfl ((h a).1 ha).1
      · exact h i hi
      · exact absurd rfl ((h a).1 ha).1
    · have ha' := (liv a e).1 ha
      rw [keep a (Or.inl ha') e i hi]
      exact I.live a ha' i hi
  · intro u d hu
    rcases pcs u d hu with ⟨rfl, h⟩ | ⟨hne, h⟩
    · rcases hc with ⟨d', h1, _, h2, _⟩ | ⟨h1, _⟩ | ⟨h1, _⟩
      · rw [h1] at h; cases h; exact h2
      · rw [h1] at h; cases h
      · rw [h1] at h; cases h
    · have := I.pcs u d h
      cases d with
      | find p x => trivial
      | reg a j w =>
        have ne : a ≠ b := by rintro rfl; exact hx u _ hne h rfl
        obtain ⟨h1, h2⟩ := this
        refine ⟨by rw [hS']; exact h1, fun i hi => ?_⟩
        rw [hS'] at hi
        rw [keep a (Or.inr ⟨u, _, h, rfl⟩) ne i hi]
        exact h2 i hi
      | unreg a j w =>
        have ne : a ≠ b := by rintro rfl; exact hx u _ hne h rfl
        obtain ⟨h1, h2⟩ := this
        refine ⟨by rw [hS']; exact h1, fun i hi => ?_⟩
        rw [hS'] at hi
        rw [keep a (Or.inr ⟨u, _, h, rfl⟩) ne i hi]
        exact h2 i hi

/-- The thread that works on `b` is the only one, and does nothing else. -/
theorem Inv.only {s : S} (I : Inv s) {t b : Nat} {c : Pc} (ht : s.pc t = some c) (hc : c.Of b) :
    s.Held b ∧ (∀ u d, u ≠ t → s.pc u = some d → ¬ d.Of b) ∧ (∀ a d, s.pc t = some d → d.Of a → a = b) ∧
      ¬ s.live b := by
  refine ⟨Or.inr ⟨t, c, ht, hc⟩, fun u d hu h hd => hu (I.uniq b u t d c h ht hd hc), ?_, fun h => I.alone b t c h ht hc⟩
  intro a d h hd
  rw [ht] at h; cases h
  cases c with
  | find p x => exact hd.elim
  | reg x y z => exact hd.symm.trans hc
  | unreg x y z => exact hd.symm.trans hc

theorem idx (b j : Nat) : (b + j * MB2) / MB2 = b / MB2 + j := by omega

theorem live_out {s : S} {b : Nat} (h : ¬ s.live b) (a : Nat) : s.live a ↔ a ≠ b ∧ s.live a := by
  constructor
  · intro ha
    refine ⟨?_, ha⟩
    rintro rfl; exact h ha
  · exact fun ha => ha.2

theorem Inv.act {once : Bool} {s s' : S} {t : Nat} {x : Option Nat} (I : Inv s) (h : Act once s t x s') : Inv s' := by
  have fr : ∀ p c, Free (some (Pc.find p c)) := by
    intro p c b d h; cases h; exact id
  have fn : Free none := by intro b d h; cases h
  cases h with
  | reg h1 h2 h3 h4 h5 => exact I.reg h1 h2 h3 h4 h5
  | @unreg b h1 h2 =>
    have hb : s.Held b := Or.inl h2
    refine I.mine (t := t) (c := some (.unreg b 0 false)) hb (fun u d _ hu hd => I.alone b u d h2 hu hd) ?_ rfl rfl
      (fun k _ => rfl) (fun i hi => Or.inr (I.live b h2 i hi)) (Or.inl ⟨_, rfl, rfl, ?_, fun a => Iff.rfl⟩)
    · intro a d h _; rw [h1] at h; cases h
    · refine ⟨?_, fun i hi => ?_⟩
      · have := I.shape b hb
        show 0 * MB2 < s.size b
        omega
      · rw [if_neg (Nat.not_lt_zero i)]
        exact I.live b h2 i hi
  | find h1 => exact I.quiet (by rw [h1]; exact fn) (fr _ _)
  | step h =>
    generalize hr : (Outcome.ok (s', x)) = r at h
    cases h with
    | @regTest b j ht =>
      split at hr
      · cases hr
      · rename_i he
        obtain ⟨rfl, rfl⟩ := Prod.mk.inj (Outcome.ok.inj hr)
        obtain ⟨hb, h1, h2, hl⟩ := I.only ht rfl
        have ok := I.pcs t _ ht
        refine I.mine (t := t) (c := some (.reg b j true)) hb h1 h2 rfl rfl (fun k _ => rfl) (fun i hi => ?_)
          (Or.inl ⟨_, rfl, rfl, ok, live_out hl⟩)
        have := ok.2 i hi
        split at this
        · exact Or.inr this
        · exact Or.inl this
    | @regStore b j ht =>
      obtain ⟨rfl, rfl⟩ := Prod.mk.inj (Outcome.ok.inj hr)
      obtain ⟨hb, h1, h2, hl⟩ := I.only ht rfl
      obtain ⟨ok1, ok2⟩ := I.pcs t _ ht
      have sh := I.shape b hb
      have hent : ∀ i, i * MB2 < s.size b → upd s.ent ((b + j * MB2) / MB2) b (b / MB2 + i) = if i < j + 1 then b else 0 := by
        intro i hi
        rw [idx]
        by_cases e : i = j
        · subst e; rw [upd_same, if_pos (Nat.lt_succ_self i)]
        · rw [upd_ne (by omega), ok2 i hi]
          by_cases e' : i < j
          · rw [if_pos e', if_pos (by omega)]
          · rw [if_neg e', if_neg (by omega)]
      have hout : ∀ k, (∀ i, i * MB2 < s.size b → k ≠ b / MB2 + i) → upd s.ent ((b + j * MB2) / MB2) b k = s.ent k := by
        intro k hk
        rw [idx]; exact upd_ne (hk j ok1)
      have hv : ∀ i, i * MB2 < s.size b → upd s.ent ((b + j * MB2) / MB2) b (b / MB2 + i) = 0 ∨
          upd s.ent ((b + j * MB2) / MB2) b (b / MB2 + i) = b := by
        intro i hi
        rw [hent i hi]; split
        · exact Or.inr rfl
        · exact Or.inl rfl
      unfold S.regNext
      split
      · rename_i hn
        have hn' : b + (j + 1) * MB2 < b + s.size b := hn
        exact I.mine (t := t) (c := some (.reg b (j + 1) false)) hb h1 h2 rfl rfl hout hv
          (Or.inl ⟨_, rfl, rfl, ⟨Nat.lt_of_add_lt_add_left hn', hent⟩, live_out hl⟩)
      · rename_i hn
        have hn' : ¬ b + (j + 1) * MB2 < b + s.size b := hn
        refine I.mine (t := t) (c := none) hb h1 h2 rfl rfl hout hv (Or.inr (Or.inl ⟨rfl, fun i hi => ?_, fun a => Iff.rfl⟩))
        have := hent i hi
        rw [if_pos (by omega)] at this
        exact this
    | @unregTest b j ht =>
      obtain ⟨rfl, rfl⟩ := Prod.mk.inj (Outcome.ok.inj hr)
      obtain ⟨hb, h1, h2, hl⟩ := I.only ht rfl
      have ok := I.pcs t _ ht
      have he : s.ent ((b + j * MB2) / MB2) = b := by
        rw [idx, ok.2 j ok.1, if_neg (Nat.lt_irrefl j)]
      rw [if_pos he]
      refine I.mine (t := t) (c := some (.unreg b j true)) hb h1 h2 rfl rfl (fun k _ => rfl) (fun i hi => ?_)
          (Or.inl ⟨_, rfl, rfl, ok, live_out hl⟩)
      have := ok.2 i hi
      split at this
      · exact Or.inl this
      · exact Or.inr this
    | @unregStore b j ht =>
      obtain ⟨rfl, rfl⟩ := Prod.mk.inj (Outcome.ok.inj hr)
      obtain ⟨hb, h1, h2, hl⟩ := I.only ht rfl
      obtain ⟨ok1, ok2⟩ := I.pcs t _ ht
      have sh := I.shape b hb
      have hent : ∀ i, i * MB2 < s.size b → upd s.ent ((b + j * MB2) / MB2) 0 (b / MB2 + i) = if i < j + 1 then 0 else b := by
        intro i hi
        rw [idx]
        by_cases e : i = j
        · subst e; rw [upd_same, if_pos (Nat.lt_succ_self i)]
        · rw [upd_ne (by omega), ok2 i hi]
          by_cases e' : i < j
          · rw [if_pos e', if_pos (by omega)]
          · rw [if_neg e', if_neg (by omega)]
      have hout : ∀ k, (∀ i, i * MB2 < s.size b → k ≠ b / MB2 + i) → upd s.ent ((b + j * MB2) / MB2) 0 k = s.ent k := by
        intro k hk
        rw [idx]; exact upd_ne (hk j ok1)
      have hv : ∀ i, i * MB2 < s.size b → upd s.ent ((b + j * MB2) / MB2) 0 (b / MB2 + i) = 0 ∨
          upd s.ent ((b + j * MB2) / MB2) 0 (b / MB2 + i) = b := by
        intro i hi
        rw [hent i hi]; split
        · exact Or.inl rfl
        · exact Or.inr rfl
      unfold S.unregNext
      split
      · rename_i hn
        have hn' : b + (j + 1) * MB2 < b + s.size b := hn
        exact I.mine (t := t) (c := some (.unreg b (j + 1) false)) hb h1 h2 rfl rfl hout hv
          (Or.inl ⟨_, rfl, rfl, ⟨Nat.lt_of_add_lt_add_left hn', hent⟩, live_out hl⟩)
      · rename_i hn
        have hn' : ¬ b + (j + 1) * MB2 < b + s.size b := hn
        refine I.mine (t := t) (c := none) hb h1 h2 rfl rfl hout hv (Or.inr (Or.inr ⟨rfl, fun i hi => ?_, live_out hl⟩))
        have := hent i hi
        rw [if_pos (by omega)] at this
        exact this
    | @find p c r ht hf =>
      have h0 : Free (s.pc t) := by rw [ht]; exact fr _ _
      have q : ∀ y, (Outcome.ok (s.go t none, y) = Outcome.ok (s', x)) → Inv s' := by
        intro y h
        obtain ⟨rfl, _⟩ := Prod.mk.inj (Outcome.ok.inj h)
        exact I.quiet h0 fn
      have q' : ∀ y d, (Outcome.ok (s.go t (some (.find p d)), y) = Outcome.ok (s', x)) → Inv s' := by
        intro y d h
        obtain ⟨rfl, _⟩ := Prod.mk.inj (Outcome.ok.inj h)
        exact I.quiet h0 (fr _ _)
      replace hr := hr.symm
      cases hf
      all_goals (try split at hr) <;> (try split at hr) <;> first
        | exact q _ hr
        | exact q' _ _ hr
        | cases hr

theorem Reach.inv {once : Bool} {s : S} (h : Reach once s) : Inv s := by
  induction h with
  | start => exact Inv.start
  | act _ h I => exact I.act h

end RegionSearch
end MpcAlloc

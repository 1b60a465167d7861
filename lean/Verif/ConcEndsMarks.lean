import Verif.ConcEnds
import Verif.ConcEndsFlag
import Verif.EndsMarks
import Verif.ConcProgress

/-
The process in which threads end while the others run, as the process of ConcPosix.lean with tags on the chains.
-/

namespace MpcAlloc

/-- Where a thread is in its end: it runs, its chain was made thread safe, its chain has the handler (and was released if
the argument is true). -/
inductive Tag
  | run
  | flag
  | ended (d : Bool)
deriving DecidableEq

abbrev Tags := Nat → Tag

/-- A chain with its tag. -/
def Chain.tag (c : Chain) : Tag → Chain
  | .run => c
  | .flag => c.flag false
  | .ended d => c.marked d false

/-- The same for the state of a call. -/
def CS.tag {σ : Type} (s : CS σ) (m : Tag) : CS σ := ⟨s.w, s.c.tag m⟩

theorem Chain.tag_addr (c : Chain) (m : Tag) : (c.tag m).addr = c.addr := by cases m <;> rfl

theorem Chain.tag_cnt (c : Chain) (m : Tag) : (c.tag m).cnt = c.cnt := by cases m <;> rfl

/-- The process with tags. -/
def PS.tags (s : PS) (μ : Tags) : PS := ⟨s.w, s.chs.mapIdx (fun i c => c.tag (μ i))⟩

/-- The same with the positions of the threads. -/
def MS.tags (k : MS) (μ : Tags) : MS := { k with chs := k.chs.mapIdx (fun i c => c.tag (μ i)) }

namespace ConcEnds

open Queue (CPC PPC upd upd_same upd_ne InFlight)

theorem tags_get (s : PS) (μ : Tags) (i : Nat) : (s.tags μ).chs[i]? = (s.chs[i]?).map (fun c => c.tag (μ i)) := by
  unfold PS.tags; simp only; rw [List.getElem?_mapIdx]

theorem mtags_get (k : MS) (μ : Tags) (i : Nat) : (k.tags μ).chs[i]? = (k.chs[i]?).map (fun c => c.tag (μ i)) :=
  tags_get k.ps μ i

theorem tags_len (s : PS) (μ : Tags) : (s.tags μ).chs.length = s.chs.length := by
  unfold PS.tags; simp

theorem tags_loc {s : PS} {μ : Tags} {i : Nat} {c : Chain} (h : s.chs[i]? = some c) :
    (s.tags μ).loc i = .ok (CS.tag ⟨s.w, c⟩ (μ i)) := by
  have : (s.tags μ).chs[i]? = some (c.tag (μ i)) := by rw [tags_get, h]; rfl
  exact PS.loc_eq this

/-- The chain of `i` changes and gets a new tag. -/
theorem tags_put {s : PS} {μ : Tags} {i : Nat} (v : CS Light) (m : Tag) :
    (s.tags μ).put i (v.tag m) = (s.put i v).tags (upd μ i m) := by
  unfold PS.put PS.tags
  simp only
  congr 1
  refine List.ext_getElem? fun j => ?_
  rw [List.getElem?_mapIdx]
  by_cases hi : i = j
  · subst hi
    rw [List.getElem?_set, List.getElem?_set, if_pos rfl, if_pos rfl, List.length_mapIdx, upd_same]
    split <;> rfl
  · rw [List.getElem?_set_ne hi, List.getElem?_set_ne hi, List.getElem?_mapIdx, upd_ne (Ne.symm hi)]

theorem tags_put_same {s : PS} {μ : Tags} {i : Nat} (v : CS Light) :
    (s.tags μ).put i (v.tag (μ i)) = (s.put i v).tags μ := by
  rw [tags_put, upd_self]

/-- Search of a chain by address: the tags do not change the addresses. -/
theorem tags_chainAt (s : PS) (μ : Tags) (a : Nat) : (s.tags μ).chainAt a = s.chainAt a := by
  have e : ∀ l : List Chain, l.findIdx? (fun c => decide (c.addr = a)) =
      (l.map Chain.addr).findIdx? (fun x => decide (x = a)) := by
    intro l; rw [List.findIdx?_map]; rfl
  have : (s.tags μ).chs.map Chain.addr = s.chs.map Chain.addr := by
    refine List.ext_getElem? fun i => ?_
    rw [List.getElem?_map, tags_get, List.getElem?_map]
    cases s.chs[i]? with
    | none => rfl
    | some c => simp [Chain.tag_addr]
  unfold PS.chainAt
  rw [e, e, this]

/-- The search of the chain of a pointer. -/
theorem tags_look (k : MS) (μ : Tags) (p : Nat) :
    (k.tags μ).look p = (do let (k1, x) ← k.look p; return (k1.tags μ, x)) := by
  unfold MS.look
  have e1 : (k.tags μ).w = k.w := rfl
  rw [e1]
  cases regionGetMacroBloc k.w.mem k.w.regs p <;> try rfl
  rename_i x
  obtain ⟨R, b⟩ := x
  simp only [Outcome.ok_bind]
  split
  · rfl
  · split
    · rfl
    · have : (MS.ps { k.tags μ with w := { k.w with regs := R } }).chainAt (readLE k.w.mem (b + 16) 8) =
          (MS.ps { k with w := { k.w with regs := R } }).chainAt (readLE k.w.mem (b + 16) 8) :=
        tags_chainAt (MS.ps { k with w := { k.w with regs := R } }) μ _
      rw [this]
      cases (MS.ps { k with w := { k.w with regs := R } }).chainAt (readLE k.w.mem (b + 16) 8) <;> rfl

/-! ## Calls on a tagged chain -/

/-- A free on the chain of a thread that has begun to end. -/
theorem chainFree_tag {S : Source Light} {C : Config} {s s1 : CS Light} {p : Nat} {m : Tag} (q : s.Plain) (h : m ≠ .ended true)
    (e : chainFree S C s p = .ok s1) (hc : 0 < s.c.cnt) :
    (m = .ended false ∧ s1.c.cnt = 0 ∧ ¬ HugeAt s p ∧ chainFree S C (s.tag m) p = .ub) ∨
    (m = .ended false ∧ s1.c.cnt = 0 ∧ HugeAt s p ∧ chainFree S C (s.tag m) p = .ok (s1.tag (.ended true))) ∨
    ((m = .ended false → s1.c.cnt ≠ 0) ∧ chainFree S C (s.tag m) p = .ok (s1.tag m)) := by
  cases m with
  | run => exact Or.inr (Or.inr ⟨fun h => (by cases h), e⟩)
  | flag =>
    refine Or.inr (Or.inr ⟨fun h => (by cases h), ?_⟩)
    show chainFree S C (s.flag false) p = _
    rw [Ends.chainFree_flag q, e]
    rfl
  | ended d =>
    cases d with
    | true => exact absurd rfl h
    | false =>
      by_cases hz : s1.c.cnt = 0
      · by_cases hH : HugeAt s p
        · refine Or.inr (Or.inl ⟨rfl, hz, hH, ?_⟩)
          show chainFree S C (s.marked false false) p = _
          rw [(chainFree_marked q).2 hH, e, Outcome.ok_bind, decide_eq_true ⟨by omega, hz⟩]
          rfl
        · refine Or.inl ⟨rfl, hz, hH, ?_⟩
          show chainFree S C (s.marked false false) p = _
          rw [(chainFree_marked q).1 hH, e, Outcome.ok_bind, if_pos ⟨by omega, hz⟩]
      · refine Or.inr (Or.inr ⟨fun _ => hz, ?_⟩)
        exact chainFree_marked_keep q e hz

/-- A resize on the chain of a thread that has begun to end. -/
theorem chainRealloc_tag {S : Source Light} {C : Config} {s : CS Light} {b p n : Nat} {m : Tag} (q : s.Plain) (h : m ≠ .ended true)
    (hp : p ≠ 0) (hn : n ≠ 0) :
    (chainRealloc S C b s p n = .ub → chainRealloc S C b (s.tag m) p n = .ub) ∧
    (∀ s1 r, chainRealloc S C b s p n = .ok (s1, r) → s1.c.cnt ≠ 0 →
      chainRealloc S C b (s.tag m) p n = .ok (s1.tag m, r)) := by
  cases m with
  | run => exact ⟨fun h => h, fun _ _ h _ => h⟩
  | flag =>
    have : chainRealloc S C b (s.tag .flag) p n = _ := Ends.chainRealloc_flag q hp hn
    rw [this]
    exact ⟨fun e => by rw [e]; rfl, fun s1 r e _ => by rw [e]; rfl⟩
  | ended d =>
    cases d with
    | true => exact absurd rfl h
    | false => exact Ends.chainRealloc_marked q hp hn

end ConcEnds

end MpcAlloc

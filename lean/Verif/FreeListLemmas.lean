import Verif.Pool

/-
Free lists: the pointer operations of Pool.lean implement operations on lists of chunk addresses.
-/

namespace MpcAlloc

/-- Two 32-byte nodes do not overlap. -/
def Sep (a b : Nat) : Prop := a + 32 ≤ b ∨ b + 32 ≤ a

theorem Sep.symm {a b : Nat} (h : Sep a b) : Sep b a := Or.symm h

/-- The nodes `l` are linked (both directions) from `a` to `z`. A list with head `h` holds `l` iff
`Links m h l h` (cyclic list). -/
def Links (m : Mem) : Nat → List Nat → Nat → Prop
  | a, [], z => getNext m a = z ∧ getPrev m z = a
  | a, b :: l, z => getNext m a = b ∧ getPrev m b = a ∧ Links m b l z

theorem links_append {m : Mem} {a b z : Nat} {l1 l2 : List Nat} :
    Links m a (l1 ++ b :: l2) z ↔ Links m a l1 b ∧ Links m b l2 z := by
  induction l1 generalizing a with
  | nil => simp [Links, and_assoc]
  | cons c l ih => simp [Links, ih, and_assoc]

theorem links_frame {m m' : Mem} {a z : Nat} {l : List Nat} (h : Links m a l z)
    (hn : ∀ n ∈ a :: l, getNext m' n = getNext m n)
    (hp : ∀ n ∈ l ++ [z], getPrev m' n = getPrev m n) : Links m' a l z := by
  induction l generalizing a with
  | nil =>
    obtain ⟨h1, h2⟩ := h
    exact ⟨by rw [hn a (by simp), h1], by rw [hp z (by simp), h2]⟩
  | cons b l ih =>
    obtain ⟨h1, h2, h3⟩ := h
    refine ⟨by rw [hn a (by simp), h1], by rw [hp b (by simp), h2], ih h3 ?_ ?_⟩
    · intro n h; exact hn n (by grind)
    · intro n h; exact hp n (by grind)

/-- First node after `a` (or `z`). -/
def firstOf (l : List Nat) (z : Nat) : Nat := match l with | [] => z | b :: _ => b
/-- Last node before `z` (or `a`). -/
def lastOf (a : Nat) (l : List Nat) : Nat := match l with | [] => a | b :: l => lastOf b l

theorem links_next {m : Mem} {a z : Nat} {l : List Nat} (h : Links m a l z) :
    getNext m a = firstOf l z := by cases l <;> exact h.1

theorem links_prev {m : Mem} {a z : Nat} {l : List Nat} (h : Links m a l z) :
    getPrev m z = lastOf a l := by
  induction l generalizing a with
  | nil => exact h.2
  | cons b l ih => exact ih h.2.2

theorem lastOf_append (a b : Nat) (l : List Nat) : lastOf a (l ++ [b]) = b := by
  induction l generalizing a with
  | nil => rfl
  | cons c l ih => exact ih c

theorem lastOf_mem (a : Nat) (l : List Nat) : lastOf a l ∈ a :: l := by
  induction l generalizing a with
  | nil => simp [lastOf]
  | cons c l ih => exact List.mem_cons_of_mem _ (ih c)

theorem firstOf_mem (z : Nat) (l : List Nat) : firstOf l z ∈ l ++ [z] := by
  cases l <;> simp [firstOf]

theorem getNext_setNext_same {m : Mem} {a v : Nat} (h : v < W64) : getNext (setNext m a v) a = v := by
  unfold getNext setNext; rw [readLE_writeLE_same]; exact Nat.mod_eq_of_lt h
theorem getPrev_setPrev_same {m : Mem} {a v : Nat} (h : v < W64) : getPrev (setPrev m a v) a = v := by
  unfold getPrev setPrev; rw [readLE_writeLE_same]; exact Nat.mod_eq_of_lt h
theorem getNext_setNext_sep {m : Mem} {a b v : Nat} (h : Sep a b) :
    getNext (setNext m a v) b = getNext m b := by
  unfold getNext setNext; rw [readLE_writeLE_other]; unfold Sep at h; omega
theorem getPrev_setPrev_sep {m : Mem} {a b v : Nat} (h : Sep a b) :
    getPrev (setPrev m a v) b = getPrev m b := by
  unfold getPrev setPrev; rw [readLE_writeLE_other]; unfold Sep at h; omega
theorem getNext_setPrev {m : Mem} {a b v : Nat} (h : a = b ∨ Sep a b) :
    getNext (setPrev m a v) b = getNext m b := by
  unfold getNext setPrev; rw [readLE_writeLE_other]; unfold Sep at h; omega
theorem getPrev_setNext {m : Mem} {a b v : Nat} (h : a = b ∨ Sep a b) :
    getPrev (setNext m a v) b = getPrev m b := by
  unfold getPrev setNext; rw [readLE_writeLE_other]; unfold Sep at h; omega

/-- `m'` differs from `m` only in the link fields of the nodes `N`. -/
def OnlyLinks (m m' : Mem) (N : List Nat) : Prop :=
  ∀ x, (∀ a ∈ N, x < a + 16 ∨ a + 32 ≤ x) → m' x = m x

theorem OnlyLinks.refl (m : Mem) (N : List Nat) : OnlyLinks m m N := fun _ _ => rfl
theorem OnlyLinks.setNext {m m' : Mem} {N : List Nat} (h : OnlyLinks m m' N) {a v : Nat} (ha : a ∈ N) :
    OnlyLinks m (setNext m' a v) N := by
  intro x hx
  unfold MpcAlloc.setNext
  rw [writeLE_other, h x hx]
  have := hx a ha; omega
theorem OnlyLinks.setPrev {m m' : Mem} {N : List Nat} (h : OnlyLinks m m' N) {a v : Nat} (ha : a ∈ N) :
    OnlyLinks m (setPrev m' a v) N := by
  intro x hx
  unfold MpcAlloc.setPrev
  rw [writeLE_other, h x hx]
  have := hx a ha; omega

/-- Separation of all the nodes involved in an operation on a list. -/
structure NodesOK (N : List Nat) : Prop where
  sep : ∀ a ∈ N, ∀ b ∈ N, a ≠ b → Sep a b
  pos : ∀ a ∈ N, 0 < a
  lt : ∀ a ∈ N, a < W64

theorem NodesOK.next {N : List Nat} (h : NodesOK N) {m : Mem} {a b v : Nat} (ha : a ∈ N) (hb : b ∈ N)
    (hv : v ∈ N) : getNext (setNext m a v) b = if b = a then v else getNext m b := by
  by_cases e : b = a
  · subst e; rw [if_pos rfl, getNext_setNext_same (h.lt v hv)]
  · rw [if_neg e, getNext_setNext_sep (h.sep a ha b hb (Ne.symm e))]
theorem NodesOK.prev {N : List Nat} (h : NodesOK N) {m : Mem} {a b v : Nat} (ha : a ∈ N) (hb : b ∈ N)
    (hv : v ∈ N) : getPrev (setPrev m a v) b = if b = a then v else getPrev m b := by
  by_cases e : b = a
  · subst e; rw [if_pos rfl, getPrev_setPrev_same (h.lt v hv)]
  · rw [if_neg e, getPrev_setPrev_sep (h.sep a ha b hb (Ne.symm e))]
theorem NodesOK.next' {N : List Nat} (h : NodesOK N) {m : Mem} {a b v : Nat} (ha : a ∈ N) (hb : b ∈ N) :
    getNext (setPrev m a v) b = getNext m b := by
  by_cases e : a = b
  · exact getNext_setPrev (Or.inl e)
  · exact getNext_setPrev (Or.inr (h.sep a ha b hb e))
theorem NodesOK.prev' {N : List Nat} (h : NodesOK N) {m : Mem} {a b v : Nat} (ha : a ∈ N) (hb : b ∈ N) :
    getPrev (setNext m a v) b = getPrev m b := by
  by_cases e : a = b
  · exact getPrev_setNext (Or.inl e)
  · exact getPrev_setNext (Or.inr (h.sep a ha b hb e))

/-- Inserting at the end of a list. -/
theorem linkChunk_end {m : Mem} {h f : Nat} {l : List Nat} (H : Links m h l h)
    (hN : NodesOK (f :: h :: l)) (hnd : (f :: h :: l).Nodup) :
    ∃ m', linkChunk m h f true = .ok m' ∧ Links m' h (l ++ [f]) h ∧ OnlyLinks m m' (f :: h :: l) := by
  obtain ⟨y, hy⟩ : ∃ y, y = lastOf h l := ⟨_, rfl⟩
  have hp : getPrev m h = y := by rw [links_prev H, hy]
  have ymem' : y ∈ h :: l := by rw [hy]; exact lastOf_mem h l
  have ymem : y ∈ f :: h :: l := List.mem_cons_of_mem _ ymem'
  have hm : h ∈ f :: h :: l := by simp
  have fm : f ∈ f :: h :: l := by simp
  have hfh : f ≠ h := by intro e; simp [e] at hnd
  have hfy : f ≠ y := by
    intro e; rw [e] at hnd
    exact (List.nodup_cons.1 hnd).1 ymem'
  unfold linkChunk
  simp only [if_true]
  have e1 : getPrev (setNext (setPrev m f (getPrev m h)) f h) h = y := by
    rw [hN.prev' fm hm, getPrev_setPrev_sep (hN.sep _ fm _ hm hfh), hp]
  rw [e1, hp, if_neg (by have := hN.pos y ymem; omega)]
  refine ⟨_, rfl, ?_, ?_⟩
  · -- links
    have fN : ∀ n ∈ f :: h :: l, getNext (setPrev (setNext (setNext (setPrev m f y) f h) y f) h f) n
        = if n = y then f else if n = f then h else getNext m n := by
      intro n hn
      rw [hN.next' hm hn, hN.next ymem hn fm, hN.next fm hn hm, hN.next' fm hn]
    have fP : ∀ n ∈ f :: h :: l, getPrev (setPrev (setNext (setNext (setPrev m f y) f h) y f) h f) n
        = if n = h then f else if n = f then y else getPrev m n := by
      intro n hn
      rw [hN.prev hm hn fm, hN.prev' ymem hn, hN.prev' fm hn, hN.prev fm hn ymem]
    rcases List.eq_nil_or_concat l with rfl | ⟨l', z, rfl⟩
    · simp only [lastOf] at hy
      subst hy
      refine ⟨?_, ?_, ?_, ?_⟩
      · rw [fN _ hm]; simp
      · rw [fP _ fm]; simp [hfh]
      · rw [fN _ fm]; simp [hfh]
      · rw [fP _ hm]; simp
    · have hyz : y = z := by rw [hy]; simpa using lastOf_append h z l'
      subst hyz
      rw [List.concat_eq_append] at *
      have H' := (links_append (l2 := [])).1 H
      have hyh : y ≠ h := by
        intro e; rw [e] at hnd
        simp at hnd
      rw [List.append_assoc]
      refine (links_append (l2 := [f])).2 ⟨?_, ?_⟩
      · refine links_frame H'.1 ?_ ?_
        · intro n hn
          have hn' : n ∈ f :: h :: (l' ++ [y]) := by grind
          rw [fN _ hn', if_neg, if_neg]
          · rintro rfl
            have := (List.nodup_cons.1 hnd).1
            exact this (by grind)
          · rintro rfl
            simp at hnd hn
            rcases hn with rfl | hn
            · exact hyh rfl
            · exact (List.nodup_append.1 hnd.2.2).2.2 _ hn _ (by simp) rfl
        · intro n hn
          have hn' : n ∈ f :: h :: (l' ++ [y]) := by grind
          rw [fP _ hn', if_neg, if_neg]
          · rintro rfl
            have := (List.nodup_cons.1 hnd).1
            exact this (by grind)
          · rintro rfl
            grind
      · refine ⟨?_, ?_, ?_, ?_⟩
        · rw [fN _ ymem]; simp
        · rw [fP _ fm]; simp [hfh]
        · rw [fN _ fm]; simp [hfy]
        · rw [fP _ hm]; simp
  · exact ((((OnlyLinks.refl m _).setPrev fm).setNext fm).setNext ymem).setPrev hm

/-- Inserting at the start of a list. -/
theorem linkChunk_start {m : Mem} {h f : Nat} {l : List Nat} (H : Links m h l h)
    (hN : NodesOK (f :: h :: l)) (hnd : (f :: h :: l).Nodup) :
    ∃ m', linkChunk m h f false = .ok m' ∧ Links m' h (f :: l) h ∧ OnlyLinks m m' (f :: h :: l) := by
  obtain ⟨y, hy⟩ : ∃ y, y = firstOf l h := ⟨_, rfl⟩
  have hp : getNext m h = y := by rw [links_next H, hy]
  have ymem' : y ∈ h :: l := by
    rw [hy]; have := firstOf_mem h l; grind
  have ymem : y ∈ f :: h :: l := List.mem_cons_of_mem _ ymem'
  have hm : h ∈ f :: h :: l := by simp
  have fm : f ∈ f :: h :: l := by simp
  have hfh : f ≠ h := by intro e; simp [e] at hnd
  have hfy : f ≠ y := by
    intro e; rw [e] at hnd
    exact (List.nodup_cons.1 hnd).1 ymem'
  unfold linkChunk
  simp only [Bool.false_eq_true, if_false]
  have e0 : getNext (setPrev m f h) h = y := by rw [hN.next' fm hm, hp]
  have e1 : getNext (setNext (setPrev m f h) f y) h = y := by
    rw [getNext_setNext_sep (hN.sep _ fm _ hm hfh), e0]
  rw [e0, e1, if_neg (by have := hN.pos y ymem; omega)]
  refine ⟨_, rfl, ?_, ?_⟩
  · have fN : ∀ n ∈ f :: h :: l, getNext (setNext (setPrev (setNext (setPrev m f h) f y) y f) h f) n
        = if n = h then f else if n = f then y else getNext m n := by
      intro n hn
      rw [hN.next hm hn fm, hN.next' ymem hn, hN.next fm hn ymem, hN.next' fm hn]
    have fP : ∀ n ∈ f :: h :: l, getPrev (setNext (setPrev (setNext (setPrev m f h) f y) y f) h f) n
        = if n = y then f else if n = f then h else getPrev m n := by
      intro n hn
      rw [hN.prev' hm hn, hN.prev ymem hn fm, hN.prev' fm hn, hN.prev fm hn hm]
    refine ⟨by rw [fN _ hm]; simp, by rw [fP _ fm]; simp [hfy], ?_⟩
    cases l with
    | nil =>
      simp only [firstOf] at hy
      subst hy
      exact ⟨by rw [fN _ fm]; simp [hfh], by rw [fP _ hm]; simp⟩
    | cons b l =>
      simp only [firstOf] at hy
      subst hy
      have hyh : y ≠ h := by intro e; rw [e] at hnd; simp at hnd
      refine ⟨by rw [fN _ fm]; simp [hfh], by rw [fP _ ymem]; simp, ?_⟩
      refine links_frame H.2.2 ?_ ?_
      · intro n hn
        have hn' : n ∈ f :: h :: (y :: l) := by grind
        rw [fN _ hn', if_neg, if_neg]
        · rintro rfl
          have := (List.nodup_cons.1 hnd).1
          exact this (by grind)
        · rintro rfl
          grind
      · intro n hn
        have hn' : n ∈ f :: h :: (y :: l) := by grind
        rw [fP _ hn', if_neg, if_neg]
        · rintro rfl
          have := (List.nodup_cons.1 hnd).1
          exact this (by grind)
        · rintro rfl
          grind
  · exact ((((OnlyLinks.refl m _).setPrev fm).setNext fm).setPrev ymem).setNext hm

theorem getNext_setState {m : Mem} {a b s : Nat} (h : a = b ∨ Sep a b) :
    getNext (setState m (a + 15) s) b = getNext m b := by
  unfold getNext setState; rw [readLE_writeLE_other]; unfold Sep at h; omega
theorem getPrev_setState {m : Mem} {a b s : Nat} (h : a = b ∨ Sep a b) :
    getPrev (setState m (a + 15) s) b = getPrev m b := by
  unfold getPrev setState; rw [readLE_writeLE_other]; unfold Sep at h; omega

theorem Pool.listId_head {P : Pool} {i : Nat} (h : i < 48) : P.listId (P.head i) = .ok i := by
  unfold Pool.listId Pool.head
  rw [if_pos (by omega)]
  congr 1; omega

/-- Removing a chunk from a list. -/
theorem freeListRemove_spec {P : Pool} {s : Heap} {i f : Nat} {l1 l2 : List Nat} (hi : i < 48)
    (H : Links s.mem (P.head i) (l1 ++ f :: l2) (P.head i))
    (hN : NodesOK (f :: P.head i :: (l1 ++ l2))) (hnd : (f :: P.head i :: (l1 ++ l2)).Nodup) :
    ∃ m1, freeListRemove P s f = .ok
        { mem := setState m1 (f + 15) SALLOC,
          status := if l1 ++ l2 = [] then setStatus s.status i false else s.status } ∧
      OnlyLinks s.mem m1 (f :: P.head i :: (l1 ++ l2)) ∧
      Links (setState m1 (f + 15) SALLOC) (P.head i) (l1 ++ l2) (P.head i) := by
  obtain ⟨h, hh⟩ : ∃ h, h = P.head i := ⟨_, rfl⟩
  have hid : P.listId h = .ok i := by rw [hh]; exact Pool.listId_head hi
  rw [← hh] at H hN hnd ⊢
  obtain ⟨Ha, Hb⟩ := links_append.1 H
  obtain ⟨y, hy⟩ : ∃ y, y = lastOf h l1 := ⟨_, rfl⟩
  obtain ⟨w, hw⟩ : ∃ w, w = firstOf l2 h := ⟨_, rfl⟩
  have hprev : getPrev s.mem f = y := by rw [links_prev Ha, hy]
  have hnext : getNext s.mem f = w := by rw [links_next Hb, hw]
  have ym' : y ∈ h :: l1 := by rw [hy]; exact lastOf_mem _ _
  have wm' : w ∈ l2 ++ [h] := by rw [hw]; exact firstOf_mem _ _
  have ym : y ∈ f :: h :: (l1 ++ l2) := by grind
  have wm : w ∈ f :: h :: (l1 ++ l2) := by grind
  have fm : f ∈ f :: h :: (l1 ++ l2) := by grind
  have hm : h ∈ f :: h :: (l1 ++ l2) := by grind
  have hfy : f ≠ y := by grind
  have hfw : f ≠ w := by grind
  have hfh : f ≠ h := by grind
  have heq : w = y ↔ l1 ++ l2 = [] := by
    constructor
    · intro e
      cases l2 with
      | cons b l2 =>
        exfalso
        simp only [firstOf] at hw
        subst hw
        grind
      | nil =>
        simp only [firstOf] at hw
        cases l1 with
        | nil => rfl
        | cons c l1 =>
          exfalso
          simp only [lastOf] at hy
          have := lastOf_mem c l1
          grind
    · intro e
      obtain ⟨rfl, rfl⟩ := List.append_eq_nil_iff.1 e
      rw [hw, hy]; rfl
  unfold freeListRemove
  simp only [hprev, hnext]
  rw [if_neg (by have := hN.pos y ym; have := hN.pos w wm; omega)]
  obtain ⟨m1, hm1⟩ : ∃ m1, m1 = setPrev (setNext (setNext (setPrev s.mem w y) y w) f 0) f 0 := ⟨_, rfl⟩
  rw [← hm1]
  have hOL : OnlyLinks s.mem m1 (f :: h :: (l1 ++ l2)) := by
    rw [hm1]
    exact ((((OnlyLinks.refl _ _).setPrev wm).setNext ym).setNext fm).setPrev fm
  refine ⟨m1, ?_, hOL, ?_⟩
  · by_cases e : w = y
    · have hl1 : l1 = [] := (List.append_eq_nil_iff.1 (heq.1 e)).1
      have hyh : y = h := by rw [hy, hl1]; rfl
      rw [if_pos e, if_pos (heq.1 e), hyh, hid]; rfl
    · rw [if_neg e, if_neg (fun h => e (heq.2 h))]; rfl
  · have sepf : ∀ n ∈ f :: h :: (l1 ++ l2), f = n ∨ Sep f n := by
      intro n hn
      by_cases e : f = n
      · exact Or.inl e
      · exact Or.inr (hN.sep _ fm _ hn e)
    have fN : ∀ n ∈ h :: (l1 ++ l2), getNext (setState m1 (f + 15) SALLOC) n
        = if n = y then w else getNext s.mem n := by
      intro n hn
      have hn' : n ∈ f :: h :: (l1 ++ l2) := List.mem_cons_of_mem _ hn
      have hnf : f ≠ n := by grind
      rw [getNext_setState (sepf n hn'), hm1, hN.next' fm hn',
        getNext_setNext_sep (hN.sep _ fm _ hn' hnf), hN.next ym hn' wm, hN.next' wm hn']
    have fP : ∀ n ∈ h :: (l1 ++ l2), getPrev (setState m1 (f + 15) SALLOC) n
        = if n = w then y else getPrev s.mem n := by
      intro n hn
      have hn' : n ∈ f :: h :: (l1 ++ l2) := List.mem_cons_of_mem _ hn
      have hnf : f ≠ n := by grind
      rw [getPrev_setState (sepf n hn'), hm1, getPrev_setPrev_sep (hN.sep _ fm _ hn' hnf),
        hN.prev' fm hn', hN.prev' ym hn', hN.prev wm hn' ym]
    -- second part: from y over l2 to h
    have hB : Links (setState m1 (f + 15) SALLOC) y l2 h := by
      cases l2 with
      | nil =>
        simp only [firstOf] at hw
        subst hw
        exact ⟨by rw [fN _ (by grind)]; simp, by rw [fP _ (by grind)]; simp⟩
      | cons b l2 =>
        simp only [firstOf] at hw
        subst hw
        refine ⟨by rw [fN _ (by grind)]; simp, by rw [fP _ (by grind)]; simp, ?_⟩
        refine links_frame Hb.2.2 ?_ ?_
        · intro n hn
          rw [fN _ (by grind), if_neg]
          rintro rfl
          grind
        · intro n hn
          rw [fP _ (by grind), if_neg]
          rintro rfl
          grind
    rcases List.eq_nil_or_concat l1 with rfl | ⟨l', z, rfl⟩
    · simp only [lastOf] at hy
      subst hy
      exact hB
    · rw [List.concat_eq_append] at *
      have hyz : y = z := by rw [hy]; exact lastOf_append h z l'
      subst hyz
      have e : l' ++ [y] ++ l2 = l' ++ y :: l2 := by simp
      rw [e]
      have Ha' := (links_append (l2 := [])).1 Ha
      refine links_append.2 ⟨links_frame Ha'.1 ?_ ?_, hB⟩
      · intro n hn
        rw [fN _ (by grind), if_neg]
        rintro rfl
        grind
      · intro n hn
        rw [fP _ (by grind), if_neg]
        rintro rfl
        grind

/-- Searching a list finds its first chunk that is large enough. -/
theorem findLoop_spec {m : Mem} {h a : Nat} {l : List Nat} {size : Int} (H : Links m a l h)
    (hl : ∀ n ∈ l, n ≠ 0 ∧ n ≠ h) :
    findLoop m h size (getNext m a) =
      .ok ((l.find? (fun n => decide (size ≤ toS (hSize m n)))).getD 0) := by
  induction l generalizing a with
  | nil =>
    rw [H.1, findLoop]
    simp
  | cons b l ih =>
    rw [H.1, findLoop]
    have hb := hl b (by simp)
    by_cases hc : toS (hSize m b) < size
    · rw [if_pos ⟨hb.1, hb.2, hc⟩, ih H.2.2 (fun n hn => hl n (by simp [hn]))]
      have : ¬ size ≤ toS (hSize m b) := by omega
      simp [this]
    · rw [if_neg (fun h => hc h.2.2), if_neg hb.2]
      have : size ≤ toS (hSize m b) := by omega
      simp [this]

end MpcAlloc

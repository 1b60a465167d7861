import Verif.PropsQueue

/-
The remote free queue of Queue.lean on a machine whose processors delay their stores: every thread has a store buffer
that reaches the memory in order and at any later time (x86-TSO: Owens, Sarkar, Sewell 2009). The atomic swaps of
/repo/src/sctk_alloc_mpscf_queue.h 160 and 226 wait for the earlier stores of their thread (`fence`), as the locked
instructions of x86 do; without `fence` they do not, which is what the comment at lines 219-223 and the commented
write barrier of line 223 are about.
-/

namespace MpcAlloc
namespace QueueTso

open Queue (PPC CPC upd upd_same upd_ne)

/-- A delayed store.
* `user a v`: the program writes `v` over the `next` field of the block at `a`;
* `clear e`: `entry->next = NULL`, mpscf_queue.h 157;
* `link e p`: `queue->head = entry` if `p` is `NULL`, line 166, and else `prev->next = entry`, line 168;
* `headNull`: `queue->head = NULL`, line 222. -/
inductive W
  | user (a v : Nat)
  | clear (e : Nat)
  | link (e p : Nat)
  | headNull
deriving DecidableEq, Repr

/-- Memory, positions and store buffers (oldest store first) of the producers and of the consumer, and the records of
`Queue.S`. -/
structure T where
  head : Nat
  tail : Nat
  next : Nat → Nat
  pc : Nat → PPC
  buf : Nat → List W
  cons : CPC
  cbuf : List W
  calls : List (Nat × Nat)
  pushed : List (Nat × Nat)
  out : List Nat

/-- `sctk_mpscf_queue_init`, mpscf_queue.h 107-115; the stores have reached the memory when the chain is published. -/
def init (next : Nat → Nat) : T := ⟨0, 0, next, fun _ => .idle, fun _ => [], .idle, [], [], [], []⟩

/-- A store reaches the memory. -/
def W.apply (τ : T) : W → T
  | .user a v => { τ with next := upd τ.next a v }
  | .clear e => { τ with next := upd τ.next e 0 }
  | .link e p => if p = 0 then { τ with head := e } else { τ with next := upd τ.next p e }
  | .headNull => { τ with head := 0 }

/-- The oldest store of a producer reaches the memory. -/
def flush (τ : T) (t : Nat) : T :=
  match τ.buf t with
  | [] => τ
  | w :: l => w.apply { τ with buf := upd τ.buf t l }

/-- The oldest store of the consumer reaches the memory. -/
def cflush (τ : T) : T :=
  match τ.cbuf with
  | [] => τ
  | w :: l => w.apply { τ with cbuf := l }

/-- A load of the head by a thread with buffer `b`: its own latest store, else the memory `m`. -/
def readHead (b : List W) (m : Nat) : Nat :=
  b.foldl (fun v w => match w with
    | .headNull => 0
    | .link e p => if p = 0 then e else v
    | _ => v) m

/-- A load of `next` of the entry at `a` by a thread with buffer `b`. -/
def readNext (b : List W) (m : Nat → Nat) (a : Nat) : Nat :=
  b.foldl (fun v w => match w with
    | .user x y => if x = a then y else v
    | .clear e => if e = a then 0 else v
    | .link e p => if p ≠ 0 ∧ p = a then e else v
    | .headNull => v) (m a)

/-- One step of producer `t` in `sctk_mpscf_queue_insert`, mpscf_queue.h 145-170. -/
def pstep (fence : Bool) (τ : T) (t : Nat) : T :=
  match τ.pc t with
  | .idle => τ
  | .clear e => { τ with pc := upd τ.pc t (.swap e), buf := upd τ.buf t (τ.buf t ++ [.clear e]) }
  | .swap e =>
    if fence = true ∧ τ.buf t ≠ [] then τ
    else { τ with tail := e, pc := upd τ.pc t (.link e τ.tail), pushed := τ.pushed ++ [(t, e)] }
  | .link e p => { τ with pc := upd τ.pc t .idle, buf := upd τ.buf t (τ.buf t ++ [.link e p]) }

/-- One step of the consumer: `sctk_alloc_chain_purge_rfq` (sctk_allocator.c 1787-1825) with
`sctk_mpscft_queue_dequeue_all` (mpscf_queue.h 202-239) and `sctk_mpscf_queue_wait_until_end_is` (176-196). -/
def cstep (fence : Bool) (τ : T) : Outcome T :=
  match τ.cons with
  | .idle => .ok (if readHead τ.cbuf τ.head = 0 then τ else { τ with cons := .load })
  | .load =>
    let h := readHead τ.cbuf τ.head
    .ok { τ with cons := if h = 0 then .dread 0 else .clearHead h }
  | .clearHead h => .ok { τ with cbuf := τ.cbuf ++ [.headNull], cons := .swapTail h }
  | .swapTail h =>
    if fence = true ∧ τ.cbuf ≠ [] then .ok τ else .ok { τ with tail := 0, cons := .walk h τ.tail h }
  | .walk h tl cur =>
    if cur = tl then .ok { τ with cons := .dread h }
    else if cur = 0 then .ub
    else .ok (if readNext τ.cbuf τ.next cur = 0 then τ else { τ with cons := .adv h tl cur })
  | .adv h tl cur => if cur = 0 then .ub else .ok { τ with cons := .walk h tl (readNext τ.cbuf τ.next cur) }
  | .dread cur => .ok { τ with cons := if cur = 0 then .idle else .dfree cur (readNext τ.cbuf τ.next cur) }
  | .dfree cur nxt => .ok { τ with cons := .dread nxt, out := τ.out ++ [cur] }

/-- The entries whose push took effect and that the consumer did not free yet. -/
def rest (τ : T) : List Nat := (τ.pushed.map Prod.snd).drop τ.out.length

/-- The entry is in the hands of the queue. -/
def InFlight (τ : T) (e : Nat) : Prop := (∃ t, τ.pc t = .clear e ∨ τ.pc t = .swap e) ∨ e ∈ rest τ

/-- The steps: any thread or any store buffer moves. A thread starts a push of an entry which is not in the hands of the
queue, and on which the other threads have no delayed store (they handed the block over before); the program stores
into the blocks that are not in the hands of the queue. -/
inductive Step (fence : Bool) (τ : T) : T → Prop
  | start {t e : Nat} : τ.pc t = .idle → e ≠ 0 → ¬ InFlight τ e →
      (∀ u, u ≠ t → ∀ v, W.user e v ∉ τ.buf u) → (∀ v, W.user e v ∉ τ.cbuf) →
      Step fence τ { τ with pc := upd τ.pc t (.clear e), calls := τ.calls ++ [(t, e)] }
  | prod (t : Nat) : Step fence τ (pstep fence τ t)
  | cons {τ' : T} : cstep fence τ = .ok τ' → Step fence τ τ'
  | flush (t : Nat) : Step fence τ (flush τ t)
  | cflush : Step fence τ (cflush τ)
  | write {t a v : Nat} : τ.pc t = .idle → ¬ InFlight τ a →
      Step fence τ { τ with buf := upd τ.buf t (τ.buf t ++ [.user a v]) }
  | cwrite {a v : Nat} : ¬ InFlight τ a → Step fence τ { τ with cbuf := τ.cbuf ++ [.user a v] }

/-- The executions from `τ`. -/
inductive Steps (fence : Bool) (τ : T) : T → Prop
  | refl : Steps fence τ τ
  | step {τ1 τ2 : T} : Steps fence τ τ1 → Step fence τ1 τ2 → Steps fence τ τ2

/-- The executions from the initial state. -/
def Reach (fence : Bool) (τ : T) : Prop := ∃ next, Steps fence (init next) τ

theorem Reach.step {fence : Bool} {τ τ' : T} (h : Reach fence τ) (h' : Step fence τ τ') : Reach fence τ' := by
  obtain ⟨n, h⟩ := h
  exact ⟨n, h.step h'⟩

/-! ## The relation with the sequentially consistent queue -/

/-- Only stores of the program. -/
def Users (l : List W) : Prop := ∀ w ∈ l, ∃ a v, w = W.user a v

/-- A buffer between two pushes: perhaps the link of the last one, then stores of the program. -/
def Pre (l : List W) : Prop := Users l ∨ ∃ e p U, l = W.link e p :: U ∧ Users U

/-- The buffer of a producer. -/
def Shape : PPC → List W → Prop
  | .idle, b => Pre b
  | .clear _, b => Pre b
  | .swap e, b => b = [] ∨ ∃ l, b = l ++ [W.clear e] ∧ Pre l
  | .link _ _, b => b = []

/-- Where the producer is when its delayed stores count as not done. -/
def absP : PPC → List W → PPC
  | _, W.link e p :: _ => .link e p
  | .swap e, [] => .swap e
  | .link e p, [] => .link e p
  | _, _ => .idle

/-- Where the consumer is when its delayed stores count as not done. -/
def absC (c : CPC) (b : List W) : CPC :=
  match c with
  | .swapTail h => if W.headNull ∈ b then .clearHead h else .swapTail h
  | c => c

/-- The push that has started and whose first store is delayed. -/
def pendC : PPC → List W → List Nat
  | .clear e, _ => [e]
  | .swap e, _ :: _ => [e]
  | _, _ => []

/-- The invariant of the buffers. -/
structure J (τ : T) : Prop where
  shape : ∀ t, Shape (τ.pc t) (τ.buf t)
  cshape : ∀ w ∈ τ.cbuf, w = W.headNull ∨ ∃ a v, w = W.user a v
  chead : W.headNull ∈ τ.cbuf → ∃ h, τ.cons = .swapTail h
  ccount : τ.cbuf.count W.headNull ≤ 1
  pre : ∀ t e, τ.pc t = .clear e ∨ τ.pc t = .swap e → e ≠ 0 ∧ e ∉ rest τ
  preU : ∀ t u e, τ.pc t = .clear e ∨ τ.pc t = .swap e → τ.pc u = .clear e ∨ τ.pc u = .swap e → t = u
  usr : ∀ t a v, W.user a v ∈ τ.buf t → a ∉ rest τ ∧ ∀ u, u ≠ t → ¬ (τ.pc u = .clear a ∨ τ.pc u = .swap a)
  cusr : ∀ a v, W.user a v ∈ τ.cbuf → a ∉ rest τ ∧ ∀ u, ¬ (τ.pc u = .clear a ∨ τ.pc u = .swap a)

/-- `s` is the state of the sequentially consistent queue in which the delayed stores were not executed yet. -/
structure R (τ : T) (s : Queue.S) : Prop where
  head : s.head = τ.head
  tail : s.tail = τ.tail
  next : s.next = τ.next
  prod : ∀ t, s.prod t = absP (τ.pc t) (τ.buf t)
  cons : s.cons = absC τ.cons τ.cbuf
  pushed : s.pushed = τ.pushed
  out : s.out = τ.out
  calls : ∀ t, Queue.ofThread t τ.calls = Queue.ofThread t s.calls ++ pendC (τ.pc t) (τ.buf t)

/-! ## Buffers -/

theorem Users.tail {w : W} {l : List W} (h : Users (w :: l)) : Users l := fun x hx => h x (List.mem_cons_of_mem _ hx)

theorem Pre.tail {w : W} {l : List W} (h : Pre (w :: l)) : Users l := by
  rcases h with h | ⟨e, p, U, h1, h2⟩
  · exact h.tail
  · cases h1; exact h2

theorem Shape.tail {p : PPC} {w : W} {l : List W} (h : Shape p (w :: l)) : Shape p l := by
  cases p with
  | idle => exact Or.inl (Pre.tail h)
  | clear e => exact Or.inl (Pre.tail h)
  | swap e =>
    rcases h with h | ⟨l0, h1, h2⟩
    · cases h
    · cases l0 with
      | nil => cases h1; exact Or.inl rfl
      | cons x l1 =>
        rw [List.cons_append] at h1
        cases h1
        exact Or.inr ⟨l1, rfl, Or.inl h2.tail⟩
  | link e p => cases h

/-- The rest of a buffer has no link. -/
theorem absP_tail {p : PPC} {w : W} {l : List W} (h : Shape p (w :: l)) (hw : ∀ e, w ≠ W.clear e) :
    absP p l = .idle ∧ pendC p l = pendC p (w :: l) := by
  have users : Users l → ∀ q, (∀ e, q ≠ PPC.swap e) → (∀ e x, q ≠ PPC.link e x) → absP q l = .idle := by
    intro hu q h1 h2
    cases l with
    | nil => cases q <;> simp_all [absP]
    | cons x l =>
      obtain ⟨a, v, rfl⟩ := hu x List.mem_cons_self
      cases q <;> rfl
  cases p with
  | idle => exact ⟨users (Pre.tail h) _ (by simp) (by simp), rfl⟩
  | clear e => exact ⟨users (Pre.tail h) _ (by simp) (by simp), rfl⟩
  | swap e =>
    rcases h with h | ⟨l0, h1, h2⟩
    · cases h
    · cases l0 with
      | nil => cases h1; exact absurd rfl (hw e)
      | cons x l1 =>
        rw [List.cons_append] at h1
        cases h1
        have hu := h2.tail
        cases l1 with
        | nil => exact ⟨rfl, rfl⟩
        | cons y l2 =>
          obtain ⟨a, v, rfl⟩ := hu y List.mem_cons_self
          exact ⟨rfl, rfl⟩
  | link e p => cases h

/-- The store of `NULL` into the new entry is the last one of the buffer. -/
theorem Shape.clear {p : PPC} {e : Nat} {l : List W} (h : Shape p (W.clear e :: l)) : p = .swap e ∧ l = [] := by
  have no : ∀ {l' : List W}, ¬ Pre (W.clear e :: l') := by
    intro l' h
    rcases h with h | ⟨_, _, _, h, _⟩
    · obtain ⟨a, v, h⟩ := h _ List.mem_cons_self
      cases h
    · cases h
  cases p with
  | idle => exact absurd h no
  | clear e => exact absurd h no
  | swap f =>
    rcases h with h | ⟨l0, h1, h2⟩
    · cases h
    · cases l0 with
      | nil => cases h1; exact ⟨rfl, rfl⟩
      | cons x l1 =>
        rw [List.cons_append] at h1
        cases h1
        exact absurd h2 no
  | link e p => cases h

theorem Shape.noHead {p : PPC} {l : List W} (h : Shape p (W.headNull :: l)) : False := by
  have no : ∀ {l' : List W}, ¬ Pre (W.headNull :: l') := by
    intro l' h
    rcases h with h | ⟨_, _, _, h, _⟩
    · obtain ⟨a, v, h⟩ := h _ List.mem_cons_self
      cases h
    · cases h
  cases p with
  | idle => exact absurd h no
  | clear e => exact absurd h no
  | swap f =>
    rcases h with h | ⟨l0, h1, h2⟩
    · cases h
    · cases l0 with
      | nil => cases h1
      | cons x l1 =>
        rw [List.cons_append] at h1
        cases h1
        exact absurd h2 no
  | link e p => cases h

theorem readHead_mem {b : List W} (m : Nat) (h1 : ∀ w ∈ b, w = W.headNull ∨ ∃ a v, w = W.user a v)
    (h2 : W.headNull ∉ b) : readHead b m = m := by
  unfold readHead
  induction b with
  | nil => rfl
  | cons w l ih =>
    rcases h1 w List.mem_cons_self with rfl | ⟨a, v, rfl⟩
    · exact absurd List.mem_cons_self h2
    · exact ih (fun w hw => h1 w (List.mem_cons_of_mem _ hw)) (fun h => h2 (List.mem_cons_of_mem _ h))

theorem readNext_mem {b : List W} (m : Nat → Nat) {a : Nat} (h1 : ∀ w ∈ b, w = W.headNull ∨ ∃ a v, w = W.user a v)
    (h2 : ∀ v, W.user a v ∉ b) : readNext b m a = m a := by
  unfold readNext
  generalize m a = x
  induction b generalizing x with
  | nil => rfl
  | cons w l ih =>
    rw [List.foldl_cons]
    have ih' := fun y => ih (fun w hw => h1 w (List.mem_cons_of_mem _ hw))
      (fun v h => h2 v (List.mem_cons_of_mem _ h)) y
    rcases h1 w List.mem_cons_self with rfl | ⟨b, v, rfl⟩
    · exact ih' x
    · have hb : b ≠ a := by rintro rfl; exact h2 v List.mem_cons_self
      simp only [hb, if_false]
      exact ih' x

@[simp] theorem apply_pc (w : W) (τ : T) : (w.apply τ).pc = τ.pc := by
  unfold W.apply; split <;> try rfl
  split <;> rfl
@[simp] theorem apply_buf (w : W) (τ : T) : (w.apply τ).buf = τ.buf := by
  unfold W.apply; split <;> try rfl
  split <;> rfl
@[simp] theorem apply_cons (w : W) (τ : T) : (w.apply τ).cons = τ.cons := by
  unfold W.apply; split <;> try rfl
  split <;> rfl
@[simp] theorem apply_cbuf (w : W) (τ : T) : (w.apply τ).cbuf = τ.cbuf := by
  unfold W.apply; split <;> try rfl
  split <;> rfl
@[simp] theorem apply_rest (w : W) (τ : T) : rest (w.apply τ) = rest τ := by
  unfold W.apply rest; split <;> try rfl
  split <;> rfl
@[simp] theorem apply_pushed (w : W) (τ : T) : (w.apply τ).pushed = τ.pushed := by
  unfold W.apply; split <;> try rfl
  split <;> rfl
@[simp] theorem apply_out (w : W) (τ : T) : (w.apply τ).out = τ.out := by
  unfold W.apply; split <;> try rfl
  split <;> rfl

/-! ## The invariant of the buffers is kept -/

theorem rest_push {τ : T} {t e a : Nat} {tl : Nat} {pc : Nat → PPC}
    (h : a ∈ rest { τ with tail := tl, pc := pc, pushed := τ.pushed ++ [(t, e)] }) : a ∈ rest τ ∨ a = e := by
  unfold rest at *
  simp only [List.map_append, List.map_cons, List.map_nil, List.drop_append, List.mem_append] at h
  rcases h with h | h
  · exact Or.inl h
  · exact Or.inr (by simpa using List.mem_of_mem_drop h)

theorem rest_out {τ : T} {c a : Nat} {pc : CPC} (h : a ∈ rest { τ with cons := pc, out := τ.out ++ [c] }) :
    a ∈ rest τ := by
  unfold rest at *
  simp only [List.length_append, List.length_cons, List.length_nil] at h
  rw [← List.drop_drop] at h
  exact List.mem_of_mem_drop h

theorem J_init (next : Nat → Nat) : J (init next) where
  shape := fun _ => Or.inl (by intro w h; cases h)
  cshape := by intro w h; cases h
  chead := by intro h; cases h
  ccount := by simp [init]
  pre := by intro t e h; simp [init] at h
  preU := by intro t u e h; simp [init] at h
  usr := by intro t a v h; cases h
  cusr := by intro a v h; cases h

theorem J_start {τ : T} (H : J τ) {t e : Nat} (h1 : τ.pc t = .idle) (h2 : e ≠ 0) (h3 : ¬ InFlight τ e)
    (h4 : ∀ u, u ≠ t → ∀ v, W.user e v ∉ τ.buf u) (h5 : ∀ v, W.user e v ∉ τ.cbuf) :
    J { τ with pc := upd τ.pc t (.clear e), calls := τ.calls ++ [(t, e)] } := by
  have hp : ∀ u f, (upd τ.pc t (.clear e) u = .clear f ∨ upd τ.pc t (.clear e) u = .swap f) →
      (u = t ∧ f = e) ∨ (u ≠ t ∧ (τ.pc u = .clear f ∨ τ.pc u = .swap f)) := by
    intro u f h
    by_cases hu : u = t
    · subst hu; rw [upd_same] at h; simp at h; exact Or.inl ⟨rfl, h.symm⟩
    · rw [upd_ne hu] at h; exact Or.inr ⟨hu, h⟩
  have nf : ∀ u, ¬ (τ.pc u = .clear e ∨ τ.pc u = .swap e) := fun u h => h3 (Or.inl ⟨u, h⟩)
  refine ⟨fun u => ?_, H.cshape, H.chead, H.ccount, fun u f h => ?_, fun u w f h h' => ?_, fun u a v h => ?_,
    fun a v h => ?_⟩
  · by_cases hu : u = t
    · subst hu; simp only [upd_same]; have := H.shape u; rw [h1] at this; exact this
    · simp only [upd_ne hu]; exact H.shape u
  · rcases hp u f h with ⟨_, rfl⟩ | ⟨_, h⟩
    · exact ⟨h2, fun h => h3 (Or.inr h)⟩
    · exact H.pre u f h
  · rcases hp u f h with ⟨h6, h7⟩ | ⟨_, h6⟩
    · rcases hp w f h' with ⟨h8, _⟩ | ⟨_, h8⟩
      · rw [h6, h8]
      · rw [h7] at h8; exact absurd h8 (nf w)
    · rcases hp w f h' with ⟨_, h8⟩ | ⟨_, h8⟩
      · rw [h8] at h6; exact absurd h6 (nf u)
      · exact H.preU u w f h6 h8
  · refine ⟨(H.usr u a v h).1, fun w hw h' => ?_⟩
    rcases hp w a h' with ⟨rfl, rfl⟩ | ⟨_, h'⟩
    · exact h4 u (fun e => hw e.symm) v h
    · exact (H.usr u a v h).2 w hw h'
  · refine ⟨(H.cusr a v h).1, fun w h' => ?_⟩
    rcases hp w a h' with ⟨_, rfl⟩ | ⟨_, h'⟩
    · exact h5 v h
    · exact (H.cusr a v h).2 w h'

theorem J_prod {τ : T} (H : J τ) (t : Nat) : J (pstep true τ t) := by
  unfold pstep
  cases hp : τ.pc t with
  | idle => exact H
  | clear e =>
    have hq : ∀ u f, (upd τ.pc t (.swap e) u = .clear f ∨ upd τ.pc t (.swap e) u = .swap f) →
        (τ.pc u = .clear f ∨ τ.pc u = .swap f) := by
      intro u f h
      by_cases hu : u = t
      · subst hu; rw [upd_same] at h; simp at h; rw [hp, h]; exact Or.inl rfl
      · rwa [upd_ne hu] at h
    have hb : ∀ u a v, W.user a v ∈ upd τ.buf t (τ.buf t ++ [.clear e]) u → W.user a v ∈ τ.buf u := by
      intro u a v h
      by_cases hu : u = t
      · subst hu; rw [upd_same] at h; simpa using h
      · rwa [upd_ne hu] at h
    refine ⟨fun u => ?_, H.cshape, H.chead, H.ccount, fun u f h => H.pre u f (hq u f h),
      fun u w f h h' => H.preU u w f (hq u f h) (hq w f h'), fun u a v h => ?_, fun a v h => ?_⟩
    · by_cases hu : u = t
      · subst hu; simp only [upd_same]
        have := H.shape u; rw [hp] at this
        exact Or.inr ⟨_, rfl, this⟩
      · simp only [upd_ne hu]; exact H.shape u
    · have := H.usr u a v (hb u a v h)
      exact ⟨this.1, fun w hw h' => this.2 w hw (hq w a h')⟩
    · have := H.cusr a v h
      exact ⟨this.1, fun w h' => this.2 w (hq w a h')⟩
  | swap e =>
    simp only [true_and]
    split
    · exact H
    · rename_i hb
      rw [not_not] at hb
      have hq : ∀ u f, (upd τ.pc t (.link e τ.tail) u = .clear f ∨ upd τ.pc t (.link e τ.tail) u = .swap f) →
          u ≠ t ∧ (τ.pc u = .clear f ∨ τ.pc u = .swap f) := by
        intro u f h
        by_cases hu : u = t
        · subst hu; rw [upd_same] at h; simp at h
        · rw [upd_ne hu] at h; exact ⟨hu, h⟩
      refine ⟨fun u => ?_, H.cshape, H.chead, H.ccount, fun u f h => ?_,
        fun u w f h h' => H.preU u w f (hq u f h).2 (hq w f h').2, fun u a v h => ?_, fun a v h => ?_⟩
      · by_cases hu : u = t
        · subst hu; simp only [upd_same]; exact hb
        · simp only [upd_ne hu]; exact H.shape u
      · obtain ⟨hu, h6⟩ := hq u f h
        refine ⟨(H.pre u f h6).1, fun hr => ?_⟩
        rcases rest_push hr with hr | h7
        · exact (H.pre u f h6).2 hr
        · exact hu (H.preU u t f h6 (Or.inr (by rw [hp, h7])))
      · have hut : u ≠ t := by rintro rfl; simp only at h; rw [hb] at h; cases h
        have := H.usr u a v h
        refine ⟨fun hr => ?_, fun w hw h' => this.2 w hw (hq w a h').2⟩
        rcases rest_push hr with hr | rfl
        · exact this.1 hr
        · exact this.2 t (fun e => hut e.symm) (Or.inr hp)
      · have := H.cusr a v h
        refine ⟨fun hr => ?_, fun w h' => this.2 w (hq w a h').2⟩
        rcases rest_push hr with hr | rfl
        · exact this.1 hr
        · exact this.2 t (Or.inr hp)
  | link e p =>
    have hb : τ.buf t = [] := by have := H.shape t; rw [hp] at this; exact this
    have hq : ∀ u f, (upd τ.pc t .idle u = .clear f ∨ upd τ.pc t .idle u = .swap f) →
        (τ.pc u = .clear f ∨ τ.pc u = .swap f) := by
      intro u f h
      by_cases hu : u = t
      · subst hu; rw [upd_same] at h; simp at h
      · rwa [upd_ne hu] at h
    refine ⟨fun u => ?_, H.cshape, H.chead, H.ccount, fun u f h => H.pre u f (hq u f h),
      fun u w f h h' => H.preU u w f (hq u f h) (hq w f h'), fun u a v h => ?_, fun a v h => ?_⟩
    · by_cases hu : u = t
      · subst hu; simp only [upd_same]
        exact Or.inr ⟨e, p, [], by rw [hb]; rfl, by intro w h; cases h⟩
      · simp only [upd_ne hu]; exact H.shape u
    · have h' : W.user a v ∈ τ.buf u := by
        by_cases hu : u = t
        · subst hu; simp only [upd_same] at h; simpa using h
        · simp only [upd_ne hu] at h; exact h
      have := H.usr u a v h'
      exact ⟨this.1, fun w hw h' => this.2 w hw (hq w a h')⟩
    · have := H.cusr a v h
      exact ⟨this.1, fun w h' => this.2 w (hq w a h')⟩

theorem J_cons {τ τ' : T} (H : J τ) (e : cstep true τ = .ok τ') : J τ' := by
  -- steps that only move the consumer
  have move : ∀ c : CPC, (∀ h, τ.cons ≠ .swapTail h) → J { τ with cons := c } := by
    intro c hc
    refine ⟨H.shape, H.cshape, fun h => ?_, H.ccount, H.pre, H.preU, H.usr, H.cusr⟩
    obtain ⟨h', e⟩ := H.chead h
    exact absurd e (hc h')
  unfold cstep at e
  cases hc : τ.cons with
  | idle =>
    rw [hc] at e; simp only at e
    split at e
    · cases e; exact H
    · cases e; exact move _ (by simp [hc])
  | load => rw [hc] at e; cases e; exact move _ (by simp [hc])
  | clearHead h =>
    rw [hc] at e; cases e
    have h0 : W.headNull ∉ τ.cbuf := by
      intro h; obtain ⟨_, e⟩ := H.chead h; rw [hc] at e; cases e
    refine ⟨H.shape, fun w hw => ?_, fun _ => ⟨h, rfl⟩, ?_, H.pre, H.preU, H.usr, fun a v h => ?_⟩
    · rcases List.mem_append.1 hw with hw | hw
      · exact H.cshape w hw
      · exact Or.inl (by simpa using hw)
    · rw [List.count_append, List.count_eq_zero_of_not_mem h0]; simp
    · exact H.cusr a v (by simpa using h)
  | swapTail h =>
    rw [hc] at e; simp only [true_and] at e
    split at e
    · cases e; exact H
    · rename_i hb
      rw [not_not] at hb
      cases e
      refine ⟨H.shape, H.cshape, fun h => ?_, H.ccount, H.pre, H.preU, H.usr, H.cusr⟩
      simp only at h; rw [hb] at h; cases h
  | walk h tl cur =>
    rw [hc] at e; simp only at e
    split at e
    · cases e; exact move _ (by simp [hc])
    · split at e
      · cases e
      · split at e
        · cases e; exact H
        · cases e; exact move _ (by simp [hc])
  | adv h tl cur =>
    rw [hc] at e; simp only at e
    split at e
    · cases e
    · cases e; exact move _ (by simp [hc])
  | dread cur => rw [hc] at e; cases e; exact move _ (by simp [hc])
  | dfree cur nxt =>
    rw [hc] at e; cases e
    refine ⟨H.shape, H.cshape, fun h => ?_, H.ccount, fun t e h => ⟨(H.pre t e h).1, fun hr => ?_⟩, H.preU,
      fun u a v h => ⟨fun hr => ?_, (H.usr u a v h).2⟩, fun a v h => ⟨fun hr => ?_, (H.cusr a v h).2⟩⟩
    · obtain ⟨_, e⟩ := H.chead h; rw [hc] at e; cases e
    · exact (H.pre t e h).2 (rest_out hr)
    · exact (H.usr u a v h).1 (rest_out hr)
    · exact (H.cusr a v h).1 (rest_out hr)

theorem J_flush {τ : T} (H : J τ) (t : Nat) : J (flush τ t) := by
  unfold flush
  cases hb : τ.buf t with
  | nil => exact H
  | cons w l =>
    have hm : ∀ u x, x ∈ upd τ.buf t l u → x ∈ τ.buf u := by
      intro u x h
      by_cases hu : u = t
      · subst hu; rw [upd_same] at h; rw [hb]; exact List.mem_cons_of_mem _ h
      · rwa [upd_ne hu] at h
    refine ⟨fun u => ?_, by simpa using H.cshape, by simpa using H.chead, by simpa using H.ccount,
      by simpa [rest] using H.pre, by simpa using H.preU, fun u a v h => ?_, by simpa [rest] using H.cusr⟩
    · rw [apply_pc, apply_buf]
      by_cases hu : u = t
      · subst hu; simp only [upd_same]
        have := H.shape u; rw [hb] at this; exact this.tail
      · simp only [upd_ne hu]; exact H.shape u
    · rw [apply_buf] at h
      rw [apply_rest, apply_pc]
      exact H.usr u a v (hm u _ h)

theorem J_cflush {τ : T} (H : J τ) : J (cflush τ) := by
  unfold cflush
  cases hb : τ.cbuf with
  | nil => exact H
  | cons w l =>
    have hm : ∀ x, x ∈ l → x ∈ τ.cbuf := fun x h => by rw [hb]; exact List.mem_cons_of_mem _ h
    refine ⟨by simpa using H.shape, ?_, ?_, ?_, by simpa [rest] using H.pre, by simpa using H.preU,
      by simpa [rest] using H.usr, ?_⟩
    · rw [apply_cbuf]; exact fun x hx => H.cshape x (hm x hx)
    · rw [apply_cbuf, apply_cons]; exact fun h => H.chead (hm _ h)
    · rw [apply_cbuf]
      refine Nat.le_trans ?_ H.ccount
      rw [hb]; exact List.count_le_count_cons
    · rw [apply_cbuf, apply_rest, apply_pc]; exact fun a v h => H.cusr a v (hm _ h)

theorem Users.snoc {l : List W} (h : Users l) (a v : Nat) : Users (l ++ [W.user a v]) := by
  intro w hw
  rcases List.mem_append.1 hw with hw | hw
  · exact h w hw
  · exact ⟨a, v, by simpa using hw⟩

theorem J_write {τ : T} (H : J τ) {t a v : Nat} (h1 : τ.pc t = .idle) (h2 : ¬ InFlight τ a) :
    J { τ with buf := upd τ.buf t (τ.buf t ++ [.user a v]) } := by
  refine ⟨fun u => ?_, H.cshape, H.chead, H.ccount, H.pre, H.preU, fun u b x h => ?_, H.cusr⟩
  · by_cases hu : u = t
    · subst hu; simp only [upd_same, h1]
      have := H.shape u; rw [h1] at this
      rcases this with h | ⟨e, p, U, h, h'⟩
      · exact Or.inl (h.snoc a v)
      · exact Or.inr ⟨e, p, U ++ [W.user a v], by rw [h]; rfl, h'.snoc a v⟩
    · simp only [upd_ne hu]; exact H.shape u
  · have h' : W.user b x ∈ τ.buf u ∨ b = a := by
      by_cases hu : u = t
      · subst hu; simp only [upd_same] at h
        rcases List.mem_append.1 h with h | h
        · exact Or.inl h
        · simp at h; exact Or.inr h.1
      · simp only [upd_ne hu] at h; exact Or.inl h
    rcases h' with h' | rfl
    · exact H.usr u b x h'
    · exact ⟨fun hr => h2 (Or.inr hr), fun w _ h' => h2 (Or.inl ⟨w, h'⟩)⟩

theorem J_cwrite {τ : T} (H : J τ) {a v : Nat} (h2 : ¬ InFlight τ a) :
    J { τ with cbuf := τ.cbuf ++ [.user a v] } := by
  refine ⟨H.shape, fun w hw => ?_, fun h => H.chead (by simpa using h), ?_, H.pre, H.preU, H.usr, fun b x h => ?_⟩
  · rcases List.mem_append.1 hw with hw | hw
    · exact H.cshape w hw
    · exact Or.inr ⟨a, v, by simpa using hw⟩
  · simp only [List.count_append]
    have : List.count W.headNull [W.user a v] = 0 := rfl
    rw [this]; exact H.ccount
  · rcases List.mem_append.1 h with h | h
    · exact H.cusr b x h
    · simp at h
      rw [h.1]
      exact ⟨fun hr => h2 (Or.inr hr), fun w h' => h2 (Or.inl ⟨w, h'⟩)⟩

theorem J_step {τ τ' : T} (H : J τ) (h : Step true τ τ') : J τ' := by
  cases h with
  | start h1 h2 h3 h4 h5 => exact J_start H h1 h2 h3 h4 h5
  | prod t => exact J_prod H t
  | cons e => exact J_cons H e
  | flush t => exact J_flush H t
  | cflush => exact J_cflush H
  | write h1 h2 => exact J_write H h1 h2
  | cwrite h2 => exact J_cwrite H h2

end QueueTso
end MpcAlloc

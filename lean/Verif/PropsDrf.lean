import Verif.Drf

/-
Property C68: threads that access data only as their owner (their own blocks, the data of a lock that they hold, blocks
handed over through memory) see on machines that delay stores in order what they would see without delays, and the code
between lock and unlock has the effect of one step.
-/

namespace MpcAlloc
namespace Drf

/-! ## Specification: memory without delays -/

/-- The data after the stores of the accesses `es`. -/
def after (m : Nat → Nat) : List Ev → Nat → Nat
  | [] => m
  | .load _ _ _ :: es => after m es
  | .store _ a v :: es => after (upd m a v) es

/-- Every load returns the value last stored. -/
def SC (m : Nat → Nat) : List Ev → Prop
  | [] => True
  | .load _ a v :: es => v = m a ∧ SC m es
  | .store _ a v :: es => SC (upd m a v) es

/-- A program of one thread: loads and stores. -/
inductive Prog (α : Type)
  | ret (x : α)
  | load (a : Nat) (k : Nat → Prog α)
  | store (a v : Nat) (p : Prog α)

/-- The program alone, in one go. -/
def Prog.run {α : Type} : Prog α → (Nat → Nat) → α × (Nat → Nat)
  | .ret x, m => (x, m)
  | .load a k, m => (k (m a)).run m
  | .store a v p, m => p.run (upd m a v)

/-- The accesses of thread `t` are those of the program with the values that were loaded, and the program ends with the
result `x`. -/
def Prog.Does {α : Type} (t : Nat) : Prog α → List Ev → α → Prop
  | .ret y, es, x => es = [] ∧ x = y
  | .load a k, es, x => ∃ v es', es = .load t a v :: es' ∧ (k v).Does t es' x
  | .store a v p, es, x => ∃ es', es = .store t a v :: es' ∧ p.Does t es' x

/-- The access is one of thread `t`. -/
def Ev.By (t : Nat) : Ev → Bool
  | .load u _ _ => u == t
  | .store u _ _ => u == t

def Ev.addr : Ev → Nat
  | .load _ a _ => a
  | .store _ a _ => a

/-- A part of an execution during which the addresses `A` belong to the thread `t`, with its accesses. -/
inductive Sec (fifo : Bool) (t : Nat) (A : Nat → Prop) (τ : T) : List Ev → T → Prop
  | start : (∀ a, A a → May τ t a) → Sec fifo t A τ [] τ
  | step {es : List Ev} {e : Option Ev} {τ1 τ2 : T} : Sec fifo t A τ es τ1 → Step fifo τ1 e τ2 →
      (∀ a, A a → May τ2 t a) → Sec fifo t A τ (es ++ e.toList) τ2

/-! ## Lemmas -/

theorem after_append (m : Nat → Nat) (es es' : List Ev) : after m (es ++ es') = after (after m es) es' := by
  induction es generalizing m with
  | nil => rfl
  | cons e es ih => cases e <;> exact ih _

theorem sc_append (m : Nat → Nat) (es es' : List Ev) : SC m (es ++ es') ↔ SC m es ∧ SC (after m es) es' := by
  induction es generalizing m with
  | nil => simp [SC, after]
  | cons e es ih =>
    cases e with
    | load t a v =>
      show (v = m a ∧ SC m (es ++ es')) ↔ (v = m a ∧ SC m es) ∧ SC (after m es) es'
      rw [ih, and_assoc]
    | store t a v => exact ih _

theorem Inv.may {τ : T} (I : Inv τ) {t a : Nat} (h : May τ t a) : Only τ a t := by
  rcases h with h | ⟨l, hl, h⟩
  · exact I.thread a t h
  · exact (I.lock a l h).1 t hl

theorem Inv.excl {τ : T} (I : Inv τ) {t u a : Nat} (h : May τ t a) (h' : May τ u a) : t = u := by
  rcases h with h | ⟨l, hl, h⟩ <;> rcases h' with h' | ⟨k, hk, h'⟩ <;> rw [h] at h' <;> cases h'
  · rfl
  · exact Classical.byContradiction fun hne => (I.one u l hk).1 t hne hl

theorem step_last {τ τ' : T} {e : Option Ev} (st : Step true τ e τ') : τ'.last = after τ.last e.toList := by
  cases st with
  | @flush t l1 l2 w hb hl => cases w <;> rfl
  | _ => rfl

theorem Run.last {m : Nat → Nat} {es : List Ev} {τ : T} (h : Run true m es τ) : τ.last = after m es := by
  induction h with
  | init o ho => rfl
  | step _ st ih => rw [after_append, ← ih, step_last st]

/-- A step makes an access that its thread may make, and loads the last value. -/
theorem Inv.ev {τ τ' : T} {e : Ev} (I : Inv τ) (st : Step true τ (some e) τ') :
    SC τ.last [e] ∧ ∃ t, e.By t = true ∧ May τ t e.addr := by
  cases st with
  | @load t a h => exact ⟨⟨(I.may h).2, trivial⟩, t, by simp [Ev.By], h⟩
  | @store t a v h => exact ⟨trivial, t, by simp [Ev.By], h⟩

/-! ## Property C68 -/

/-- C68: two threads never may access the same address at the same time. -/
theorem C68_exclusive {m : Nat → Nat} {es : List Ev} {τ : T} (h : Run true m es τ) {t u a : Nat} (ht : May τ t a)
    (hu : May τ u a) : t = u := h.inv.excl ht hu

/-- C68: a thread reads in all data that it may access the value last stored, by whichever thread. -/
theorem C68_reads_last {m : Nat → Nat} {es : List Ev} {τ : T} (h : Run true m es τ) {t a : Nat} (ht : May τ t a) :
    view (τ.buf t) τ.mem a = after m es a := by rw [(h.inv.may ht).2, h.last]

/-- C68: the accesses of all threads in an execution are those of a memory without delays. -/
theorem C68_no_delay {m : Nat → Nat} {es : List Ev} {τ : T} (h : Run true m es τ) : SC m es := by
  induction h with
  | init o ho => trivial
  | @step es e τ τ' hr st ih =>
    rw [sc_append]
    refine ⟨ih, ?_⟩
    rw [← hr.last]
    cases e with
    | none => trivial
    | some e => exact (hr.inv.ev st).1

/-- C68: when all stores have reached the memory, the memory has the values last stored. -/
theorem C68_quiet {m : Nat → Nat} {es : List Ev} {τ : T} (h : Run true m es τ) (hb : ∀ t, τ.buf t = []) :
    τ.mem = after m es := by
  have key : ∀ a, ∃ t, Only τ a t := by
    clear hb
    induction h with
    | init o ho => exact fun a => ⟨0, fun u _ ⟨v, h⟩ => (by cases h), rfl⟩
    | @step es e τ τ' hr st ih =>
      intro a
      obtain ⟨u, hu⟩ := ih a
      cases st with
      | swap h => exact ⟨u, hu⟩
      | load h => exact ⟨u, hu⟩
      | take h1 h2 => exact ⟨u, hu⟩
      | put h1 h2 => exact ⟨u, hu⟩
      | recv h => exact ⟨u, hu⟩
      | @store t b v h =>
        by_cases e : a = b
        · subst e
          have h1 := hr.inv.may h
          refine ⟨t, fun z hz hp => h1.1 z hz ?_, ?_⟩
          · simpa only [upd_ne hz] using hp
          · simp only [upd_same, view_snoc]
        · refine ⟨u, ?_⟩
          refine Only.push (τ := τ) (t := t) (w := .data b v) ?_ ?_ ?_ ?_ hu
          · rfl
          · rfl
          · exact upd_ne e
          · rintro v' h; cases h; exact e rfl
      | @unlock t l h =>
        refine ⟨u, ?_⟩
        refine Only.push (τ := τ) (t := t) (w := .unlock l) ?_ ?_ ?_ ?_ hu
        · rfl
        · rfl
        · rfl
        · simp
      | @send t c A h =>
        refine ⟨u, ?_⟩
        refine Only.push (τ := τ) (t := t) (w := .send c τ.nxt) ?_ ?_ ?_ ?_ hu
        · rfl
        · rfl
        · rfl
        · simp
      | @flush t l1 l2 w hb hl =>
        have := hl rfl
        subst this
        exact ⟨u, hu.pop (w := w) (l := l2) hb (by cases w <;> rfl) (by cases w <;> rfl) (by cases w <;> rfl)⟩
  rw [← h.last]
  funext a
  obtain ⟨t, ht⟩ := key a
  rw [← ht.2, hb t]
  rfl

theorem Sec.run {fifo : Bool} {m : Nat → Nat} {es es' : List Ev} {t : Nat} {A : Nat → Prop} {τ τ' : T}
    (h : Run fifo m es τ) (s : Sec fifo t A τ es' τ') : Run fifo m (es ++ es') τ' := by
  induction s with
  | start _ => rw [List.append_nil]; exact h
  | step _ st _ ih => rw [← List.append_assoc]; exact ih.step st

theorem Sec.may {fifo : Bool} {es : List Ev} {t : Nat} {A : Nat → Prop} {τ τ' : T} (s : Sec fifo t A τ es τ') {a : Nat}
    (ha : A a) : May τ' t a := by
  cases s with
  | start h => exact h a ha
  | step _ _ h => exact h a ha

/-- C68: during a part of an execution in which the addresses `A` belong to the thread `t`, which accesses no others,
the thread loads the values that it would load if it ran alone, and leaves the values in `A` that it would leave. -/
theorem C68_section {m : Nat → Nat} {es es' : List Ev} {t : Nat} {A : Nat → Prop} {τ τ' : T} (h : Run true m es τ)
    (s : Sec true t A τ es' τ') (hA : ∀ e ∈ es', e.By t = true → A e.addr) :
    SC (after m es) (es'.filter (Ev.By t)) ∧
    ∀ a, A a → after m (es ++ es') a = after (after m es) (es'.filter (Ev.By t)) a := by
  induction s with
  | start _ => exact ⟨trivial, fun a _ => by rw [List.append_nil]; rfl⟩
  | @step es1 e τ1 τ2 s st hm ih =>
    obtain ⟨h1, h2⟩ := ih fun e he => hA e (List.mem_append_left _ he)
    cases e with
    | none => simpa using ⟨h1, h2⟩
    | some e =>
      have R := s.run h
      obtain ⟨g1, u, g2, g3⟩ := R.inv.ev st
      rw [R.last] at g1
      have g4 := hA e (List.mem_append_right _ (List.mem_singleton.2 rfl))
      simp only [Option.toList]
      rw [List.filter_append, ← List.append_assoc]
      by_cases c : e.By t = true
      · rw [show [e].filter (Ev.By t) = [e] by simp [c], sc_append]
        refine ⟨⟨h1, ?_⟩, fun a ha => ?_⟩
        · cases e with
          | load u a v =>
            have := h2 a (g4 c)
            rw [show SC _ [Ev.load u a v] = (v = _ ∧ True) from rfl] at g1 ⊢
            rw [← this]; exact g1
          | store u a v => trivial
        · rw [after_append _ (es ++ es1), after_append _ (es1.filter _)]
          cases e with
          | load u b v => exact h2 a ha
          | store u b v =>
            show upd _ b v a = upd _ b v a
            unfold upd
            split
            · rfl
            · exact h2 a ha
      · rw [show [e].filter (Ev.By t) = [] by simp [c], List.append_nil]
        refine ⟨h1, fun a ha => ?_⟩
        rw [← h2 a ha, after_append]
        cases e with
        | load u b v => rfl
        | store z b v =>
          show upd _ b v a = _
          refine upd_ne ?_
          rintro rfl
          have := R.inv.excl g3 (s.may ha)
          subst this
          exact c g2

theorem Prog.Does.run {α : Type} {t : Nat} {p : Prog α} {es : List Ev} {x : α} (h : p.Does t es x) {m : Nat → Nat}
    (hs : SC m es) : p.run m = (x, after m es) := by
  induction p generalizing es m with
  | ret y => obtain ⟨rfl, rfl⟩ := h; rfl
  | load a k ih =>
    obtain ⟨v, es', rfl, h'⟩ := h
    obtain ⟨rfl, hs'⟩ := hs
    exact ih _ h' hs'
  | store a v p ih =>
    obtain ⟨es', rfl, h'⟩ := h
    exact ih h' hs

/-- C68: the code between lock and unlock has the effect of one step. If the accesses of `t` during such a part of an
execution are those of a program, then its result and the data that it leaves are those of the program run at once on the
data at the beginning. The steps of the other threads may come at any moment in between. -/
theorem C68_atomic {α : Type} {m : Nat → Nat} {es es' : List Ev} {t : Nat} {A : Nat → Prop} {τ τ' : T}
    (h : Run true m es τ) (s : Sec true t A τ es' τ') (hA : ∀ e ∈ es', e.By t = true → A e.addr) {p : Prog α} {x : α}
    (hp : p.Does t (es'.filter (Ev.By t)) x) :
    (p.run (after m es)).1 = x ∧ ∀ a, A a → after m (es ++ es') a = (p.run (after m es)).2 a := by
  obtain ⟨h1, h2⟩ := C68_section h s hA
  rw [hp.run h1]
  exact ⟨rfl, h2⟩

/-- C68: the hand-over of a block through memory: when a thread finds the message, it may access the data given with it. -/
theorem C68_hand_over {m : Nat → Nat} {es : List Ev} {τ : T} (h : Run true m es τ) {t c a : Nat}
    (h0 : readBox (τ.buf t) τ.box c ≠ 0) (ha : τ.own a = .msg (readBox (τ.buf t) τ.box c)) :
    ∃ τ', Run true m es τ' ∧ May τ' t a ∧ view (τ'.buf t) τ'.mem a = after m es a := by
  have h' := h.step (Step.recv h0)
  rw [Option.toList_none, List.append_nil] at h'
  refine ⟨_, h', ?_⟩
  have hm : May { τ with own := fun a => if τ.own a = .msg (readBox (τ.buf t) τ.box c) then .thread t else τ.own a } t a :=
    Or.inl (if_pos ha)
  exact ⟨hm, C68_reads_last h' hm⟩

/-- C68 is false when the stores of a thread may reach the memory in any order: thread 2 has received the address 5 from
thread 1, which has stored 7 there before, and reads 0. -/
theorem C68_refuted_order : ∃ es τ, Run false (fun _ => 0) es τ ∧ May τ 2 5 ∧ after (fun _ => 0) es 5 = 7 ∧
    view (τ.buf 2) τ.mem 5 = 0 := by
  have h := Run.init (fifo := false) (m := fun _ => 0) (fun _ => .thread 1) (by simp)
  have h := h.step (Step.store (t := 1) (a := 5) 7 (Or.inl rfl))
  have h := h.step (Step.send (t := 1) (c := 3) (fun a => a == 5) (fun _ _ => rfl))
  have h := h.step (Step.flush (t := 1) (l1 := [.data 5 7]) (w := .send 3 1) (l2 := []) rfl (by simp))
  have h := h.step (Step.recv (t := 2) (c := 3) (by decide))
  exact ⟨_, _, h, Or.inl rfl, rfl, rfl⟩

/-- The hypotheses: the chain with lock 0 has the addresses below 10. Thread 1 takes the lock, stores, takes the address 5
out as its block and releases the lock, stores into its block, and gives it to thread 2, all of this still delayed; the
stores arrive one by one; thread 2 receives the block and reads 8. -/
example : ∃ es τ, Run true (fun _ => 0) es τ ∧ May τ 2 5 ∧ τ.own 4 = .lock 0 ∧ τ.mem 5 = 8 ∧ after (fun _ => 0) es 5 = 8 := by
  have h := Run.init (fifo := true) (m := fun _ => 0) (fun a => if a < 10 then .lock 0 else .thread 7)
    (by intro a i; split <;> simp)
  have h := h.step (Step.swap (t := 1) (l := 0) rfl)
  have h := h.step (Step.store (t := 1) (a := 4) 7 (Or.inr ⟨0, Or.inl rfl, rfl⟩))
  have h := h.step (Step.take (t := 1) (l := 0) (a := 5) (Or.inl rfl) rfl)
  have h := h.step (Step.unlock (t := 1) (l := 0) (Or.inl rfl))
  have h := h.step (Step.store (t := 1) (a := 5) 8 (Or.inl rfl))
  have h := h.step (Step.send (t := 1) (c := 3) (fun a => a == 5) (by intro a ha; rw [beq_iff_eq] at ha; subst ha; rfl))
  have h := h.step (Step.flush (t := 1) (l1 := []) (w := .data 4 7) rfl (fun _ => rfl))
  have h := h.step (Step.flush (t := 1) (l1 := []) (w := .unlock 0) rfl (fun _ => rfl))
  have h := h.step (Step.flush (t := 1) (l1 := []) (w := .data 5 8) rfl (fun _ => rfl))
  have h := h.step (Step.flush (t := 1) (l1 := []) (w := .send 3 1) rfl (fun _ => rfl))
  have h := h.step (Step.recv (t := 2) (c := 3) (by decide))
  exact ⟨_, _, h, Or.inl rfl, rfl, rfl, rfl⟩

/-- A section: with the lock, thread 1 reads the address 4, stores one more into the address 5, while thread 2 stores into
its own address 20; `C68_atomic` applies to the program of thread 1. -/
example : ∃ es es' τ τ', Run true (fun _ => 3) es τ ∧ Sec true 1 (fun a => a = 4 ∨ a = 5) τ es' τ' ∧
    (∀ e ∈ es', e.By 1 = true → e.addr = 4 ∨ e.addr = 5) ∧
    (Prog.load 4 fun v => .store 5 (v + 1) (.ret v)).Does 1 (es'.filter (Ev.By 1)) 3 ∧ es'.length = 3 := by
  have h := Run.init (fifo := true) (m := fun _ => 3) (fun a => if a < 10 then .lock 0 else .thread 2)
    (by intro a i; split <;> simp)
  have h := h.step (Step.swap (t := 1) (l := 0) rfl)
  have m0 : ∀ {τ : T}, τ.own 4 = .lock 0 → τ.own 5 = .lock 0 → τ.holds 1 0 → ∀ a, a = 4 ∨ a = 5 → May τ 1 a := by
    rintro τ h4 h5 hl a (rfl | rfl)
    · exact Or.inr ⟨0, hl, h4⟩
    · exact Or.inr ⟨0, hl, h5⟩
  have s := Sec.start (fifo := true) (t := 1) (A := fun a => a = 4 ∨ a = 5)
    (τ := { init (fun _ => 3) (fun a => if a < 10 then Own.lock 0 else .thread 2) with
      word := upd (fun _ => 0) 0 1, holds := upd (fun _ _ => False) 1 (fun k => k = 0 ∨ False) })
    (m0 rfl rfl (Or.inl rfl))
  have s := s.step (Step.load (t := 1) (a := 4) (Or.inr ⟨0, Or.inl rfl, rfl⟩)) (m0 rfl rfl (Or.inl rfl))
  have s := s.step (Step.store (t := 2) (a := 20) 9 (Or.inl rfl)) (m0 rfl rfl (Or.inl rfl))
  have s := s.step (Step.store (t := 1) (a := 5) 4 (Or.inr ⟨0, Or.inl rfl, rfl⟩)) (m0 rfl rfl (Or.inl rfl))
  refine ⟨_, _, _, _, h, s, ?_, ⟨3, _, rfl, _, rfl, rfl, rfl⟩, rfl⟩
  intro e he hb
  simp only [Option.toList, List.nil_append, List.cons_append, List.mem_cons, List.not_mem_nil, or_false] at he
  rcases he with rfl | rfl | rfl
  · exact Or.inl rfl
  · simp [Ev.By] at hb
  · exact Or.inr rfl

end Drf
end MpcAlloc

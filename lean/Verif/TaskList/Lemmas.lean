import Verif.TaskList.Spec

/-! # Invariants of `TaskList::process` -/

namespace Maike.TaskList

/-! ## Reading the history -/

def subs (h : List Ev) : List Nat := h.filterMap fun | .submit t => some t | _ => none
def starts (h : List Ev) : List Nat := h.filterMap fun | .start t => some t | _ => none
def fins (h : List Ev) : List Nat := h.filterMap fun | .finish t _ => some t | _ => none

@[simp] theorem subs_append (a b : List Ev) : subs (a ++ b) = subs a ++ subs b := by simp [subs]
@[simp] theorem starts_append (a b : List Ev) : starts (a ++ b) = starts a ++ starts b := by simp [starts]
@[simp] theorem fins_append (a b : List Ev) : fins (a ++ b) = fins a ++ fins b := by simp [fins]
@[simp] theorem subs_nil : subs [] = [] := rfl
@[simp] theorem starts_nil : starts [] = [] := rfl
@[simp] theorem fins_nil : fins [] = [] := rfl
@[simp] theorem subs_submit (t : Nat) : subs [.submit t] = [t] := rfl
@[simp] theorem subs_start (t : Nat) : subs [.start t] = [] := rfl
@[simp] theorem subs_finish (t : Nat) (o) : subs [.finish t o] = [] := rfl
@[simp] theorem starts_submit (t : Nat) : starts [.submit t] = [] := rfl
@[simp] theorem starts_start (t : Nat) : starts [.start t] = [t] := rfl
@[simp] theorem starts_finish (t : Nat) (o) : starts [.finish t o] = [] := rfl
@[simp] theorem fins_submit (t : Nat) : fins [.submit t] = [] := rfl
@[simp] theorem fins_start (t : Nat) : fins [.start t] = [] := rfl
@[simp] theorem fins_finish (t : Nat) (o) : fins [.finish t o] = [t] := rfl

theorem mem_subs {h : List Ev} {t : Nat} : t ∈ subs h ↔ .submit t ∈ h := by
  simp only [subs, List.mem_filterMap]
  constructor
  · rintro ⟨e, he, h⟩
    cases e <;> simp at h
    subst h; exact he
  · intro h; exact ⟨_, h, rfl⟩

theorem mem_starts {h : List Ev} {t : Nat} : t ∈ starts h ↔ .start t ∈ h := by
  simp only [starts, List.mem_filterMap]
  constructor
  · rintro ⟨e, he, h⟩
    cases e <;> simp at h
    subst h; exact he
  · intro h; exact ⟨_, h, rfl⟩

theorem mem_fins {h : List Ev} {t : Nat} : t ∈ fins h ↔ ∃ o, .finish t o ∈ h := by
  simp only [fins, List.mem_filterMap]
  constructor
  · rintro ⟨e, he, h⟩
    cases e <;> simp at h
    subst h; exact ⟨_, he⟩
  · rintro ⟨o, h⟩; exact ⟨_, h, rfl⟩

/-! ## The transitions as a relation -/

def wrapPc (suf : List Nat) : Pc := if suf = [] then .waiting else .loop

theorem wrap_eq (s : State) : wrap s = { s with pc := wrapPc s.suf } := by
  unfold wrap wrapPc; split <;> rfl

inductive Step (j : Job) : State → State → Prop
  | loopDrain (s) : s.pc = .loop → s.suf = [] → s.pre = [] → Step j s { s with pc := .draining }
  | loopRead (s t suf) : s.pc = .loop → s.suf = t :: suf →
      Step j s { s with pc := .reading (j.deps t) }
  | submit (s t suf) : s.pc = .reading [] → s.suf = t :: suf →
      Step j s { s with
        num := s.num + 1, counter := s.counter + 1, queue := s.queue ++ [t], suf := suf,
        hist := s.hist ++ [.submit t], pc := wrapPc suf }
  | readOk (s d ds) : s.pc = .reading (d :: ds) → s.results d = .success →
      Step j s { s with pc := .reading ds }
  | readPending (s d ds t suf) : s.pc = .reading (d :: ds) → s.results d = .pending →
      s.suf = t :: suf → Step j s { s with pre := s.pre ++ [t], suf := suf, pc := wrapPc suf }
  | readFail (s d ds) : s.pc = .reading (d :: ds) → s.results d = .failure →
      Step j s { s with pre := [], suf := [], pc := .loop }
  | wake (s) : s.pc = .waiting → s.event = true →
      Step j s { s with event := false, suf := s.pre ++ s.suf, pre := [], pc := .loop }
  | rethrow (s t) : s.pc = .draining → s.counter = 0 → s.eptr = some t →
      Step j s { s with eptr := none, pc := .rethrown t }
  | ret (s) : s.pc = .draining → s.counter = 0 → s.eptr = none →
      Step j s { s with pc := .returned s.num }
  | take (s t q) : s.running.length < j.workers → s.queue = t :: q →
      Step j s { s with queue := q, running := s.running ++ [(t, .body)],
                        hist := s.hist ++ [.start t] }
  | finSuccess (s l₁ t l₂) : s.running = l₁ ++ (t, .body) :: l₂ →
      Step j s { s with
        results := setResult s.results t .success, running := l₁ ++ (t, .exiting) :: l₂,
        hist := s.hist ++ [.finish t .success] }
  | finFailure (s l₁ t l₂) : s.running = l₁ ++ (t, .body) :: l₂ →
      Step j s { s with
        results := setResult s.results t .failure, running := l₁ ++ (t, .throwing) :: l₂,
        hist := s.hist ++ [.finish t .failure] }
  | finThrew (s l₁ t l₂) : s.running = l₁ ++ (t, .body) :: l₂ →
      Step j s { s with
        running := l₁ ++ (t, .throwing) :: l₂, hist := s.hist ++ [.finish t .threw] }
  | store (s l₁ t l₂) : s.running = l₁ ++ (t, .throwing) :: l₂ →
      Step j s { s with
        eptr := (match s.eptr with | none => some t | some x => some x),
        running := l₁ ++ (t, .exiting) :: l₂ }
  | setEvent (s l₁ t l₂) : s.running = l₁ ++ (t, .exiting) :: l₂ →
      Step j s { s with event := true, running := l₁ ++ (t, .unlocking) :: l₂ }
  | unlock (s l₁ t l₂) : s.running = l₁ ++ (t, .unlocking) :: l₂ →
      Step j s { s with counter := s.counter - 1, running := l₁ ++ l₂ }

theorem getElem?_split {α : Type} {l : List α} {k : Nat} {x : α} (h : l[k]? = some x) :
    ∃ l₁ l₂, l = l₁ ++ x :: l₂ ∧ (∀ y, l.set k y = l₁ ++ y :: l₂) ∧ l.eraseIdx k = l₁ ++ l₂ := by
  induction l generalizing k with
  | nil => simp at h
  | cons a l ih =>
    cases k with
    | zero => simp at h; subst h; exact ⟨[], l, rfl, fun _ => rfl, rfl⟩
    | succ k =>
      simp at h
      obtain ⟨l₁, l₂, h1, h2, h3⟩ := ih h
      exact ⟨a :: l₁, l₂, by simp [h1], by simp [h2], by simp [h3]⟩

theorem step_Step {j : Job} {a : Act} {s s' : State} (h : step j a s = some s') : Step j s s' := by
  cases a with
  | main =>
    simp only [step, stepMain] at h
    split at h
    · rename_i hpc
      split at h
      · rename_i hs
        split at h
        · rename_i hp
          simp at h; subst h; exact .loopDrain s hpc hs hp
        · simp at h
      · rename_i t suf hs
        simp at h; subst h; exact .loopRead s t suf hpc hs
    · rename_i hpc
      split at h
      · simp at h
      · rename_i t suf hs
        simp at h; subst h
        rw [wrap_eq]; exact Step.submit (j := j) s t suf hpc hs
    · rename_i d ds hpc
      split at h
      · rename_i hr
        simp at h; subst h; exact .readOk s d ds hpc hr
      · rename_i hr
        split at h
        · simp at h
        · rename_i t suf hs
          simp at h; subst h
          rw [wrap_eq]; exact Step.readPending (j := j) s d ds t suf hpc hr hs
      · rename_i hr
        simp at h; subst h; exact .readFail s d ds hpc hr
    · rename_i hpc
      split at h
      · rename_i he
        simp at h; subst h; exact .wake s hpc he
      · simp at h
    · rename_i hpc
      split at h
      · rename_i hc
        split at h
        · rename_i t he
          simp at h; subst h; exact .rethrow s t hpc hc he
        · rename_i he
          simp at h; subst h; exact .ret s hpc hc he
      · simp at h
    · simp at h
    · simp at h
  | take =>
    simp only [step, stepTake] at h
    split at h
    · rename_i hl
      split at h
      · simp at h
      · rename_i t q hq
        simp at h; subst h; exact .take s t q hl hq
    · simp at h
  | work k o =>
    simp only [step, stepWork] at h
    split at h
    · simp at h
    · rename_i t hk
      obtain ⟨l₁, l₂, h1, h2, h3⟩ := getElem?_split hk
      split at h <;> simp only [h2, Option.some.injEq] at h <;> subst h
      · exact .finSuccess s l₁ t l₂ h1
      · exact .finFailure s l₁ t l₂ h1
      · exact .finThrew s l₁ t l₂ h1
    · rename_i t hk
      obtain ⟨l₁, l₂, h1, h2, h3⟩ := getElem?_split hk
      simp only [h2, Option.some.injEq] at h; subst h
      exact .store s l₁ t l₂ h1
    · rename_i t hk
      obtain ⟨l₁, l₂, h1, h2, h3⟩ := getElem?_split hk
      simp only [h2, Option.some.injEq] at h; subst h
      exact .setEvent s l₁ t l₂ h1
    · rename_i t hk
      obtain ⟨l₁, l₂, h1, h2, h3⟩ := getElem?_split hk
      simp only [h3, Option.some.injEq] at h; subst h
      exact .unlock s l₁ t l₂ h1

/-- Induction principle: what holds initially and is preserved by each step holds always. -/
theorem reachable_induction {j : Job} {P : State → Prop} (h0 : P (init j))
    (hstep : ∀ s s', P s → Step j s s' → P s') : ∀ s, Reachable j s → P s := by
  have : ∀ (as : List Act) (s s' : State), P s → exec j as s = some s' → P s' := by
    intro as
    induction as with
    | nil => intro s s' hp h; simp [exec] at h; subst h; exact hp
    | cons a as ih =>
      intro s s' hp h
      simp only [exec] at h
      split at h
      · rename_i s1 hs1
        exact ih _ _ (hstep _ _ hp (step_Step hs1)) h
      · simp at h
  rintro s ⟨as, h⟩
  exact this as _ _ h0 h

/-! ## Invariant A: bookkeeping of lists -/

structure InvA (j : Job) (s : State) : Prop where
  sub : (s.pre ++ s.suf).Sublist j.tasks
  fresh : ∀ t ∈ s.pre ++ s.suf, t ∉ subs s.hist
  subs_nodup : (subs s.hist).Nodup
  subs_tasks : ∀ t ∈ subs s.hist, t ∈ j.tasks
  fifo : subs s.hist = starts s.hist ++ s.queue
  run_starts : ∀ p ∈ s.running, p.1 ∈ starts s.hist
  run_nodup : (s.running.map Prod.fst).Nodup
  fin_iff : ∀ t, t ∈ fins s.hist ↔ t ∈ starts s.hist ∧ (t, Stage.body) ∉ s.running
  fin_nodup : (fins s.hist).Nodup
  ctr : s.counter = s.queue.length + s.running.length
  num : s.num = (subs s.hist).length
  bound : s.running.length ≤ j.workers
  at_loop : s.pc = .loop → s.suf = [] → s.pre = []
  at_wait : s.pc = .waiting → s.suf = []
  at_end : s.pc = .draining ∨ s.Ended → s.pre = [] ∧ s.suf = []
  ended : s.Ended → s.queue = [] ∧ s.running = []

theorem invA_init (j : Job) : InvA j (init j) := by
  constructor <;> simp [init, State.Ended]

theorem starts_nodup {j : Job} {s : State} (h : InvA j s) : (starts s.hist).Nodup := by
  have := h.subs_nodup
  rw [h.fifo] at this
  exact (List.nodup_append.mp this).1

theorem stage_unique {l : List (Nat × Stage)} (hn : (l.map Prod.fst).Nodup) {t : Nat} {a b : Stage}
    (ha : (t, a) ∈ l) (hb : (t, b) ∈ l) : a = b := by
  induction l with
  | nil => cases ha
  | cons x l ih =>
    simp only [List.map_cons, List.nodup_cons] at hn
    cases ha with
    | head =>
      cases hb with
      | head => rfl
      | tail _ hb =>
        exact absurd (List.mem_map.mpr ⟨_, hb, rfl⟩) hn.1
    | tail _ ha =>
      cases hb with
      | head => exact absurd (List.mem_map.mpr ⟨_, ha, rfl⟩) hn.1
      | tail _ hb => exact ih hn.2 ha hb

theorem ended_with_pc {s : State} {pc : Pc} (h : ({ s with pc := pc } : State).Ended) :
    (∃ n, pc = .returned n) ∨ (∃ t, pc = .rethrown t) := h

theorem wrapPc_ne_ended (suf : List Nat) : ¬ ((∃ n, wrapPc suf = .returned n) ∨ (∃ t, wrapPc suf = .rethrown t)) := by
  unfold wrapPc; split <;> simp

theorem wrapPc_cases (suf : List Nat) : (wrapPc suf = .waiting ∧ suf = []) ∨ (wrapPc suf = .loop ∧ suf ≠ []) := by
  unfold wrapPc; split <;> simp [*]

/-- Common part for steps of a worker that only change the stage of a task that has left its body. -/
theorem invA_stage {j : Job} {s : State} {l₁ l₂ : List (Nat × Stage)} {t : Nat} {a b : Stage}
    (hi : InvA j s) (hr : s.running = l₁ ++ (t, a) :: l₂) (ha : a ≠ .body) (hb : b ≠ .body)
    {e : Option Nat} {ev : Bool} :
    InvA j { s with running := l₁ ++ (t, b) :: l₂, eptr := e, event := ev } := by
  have hmem : ∀ x, (x, Stage.body) ∈ l₁ ++ (t, b) :: l₂ ↔ (x, Stage.body) ∈ s.running := by
    intro x; rw [hr]
    simp only [List.mem_append, List.mem_cons, Prod.mk.injEq]
    constructor
    · rintro (h | ⟨_, h⟩ | h)
      · exact .inl h
      · exact absurd h.symm hb
      · exact .inr (.inr h)
    · rintro (h | ⟨_, h⟩ | h)
      · exact .inl h
      · exact absurd h.symm ha
      · exact .inr (.inr h)
  have hmap : (l₁ ++ (t, b) :: l₂).map Prod.fst = s.running.map Prod.fst := by rw [hr]; simp
  have hlen : (l₁ ++ (t, b) :: l₂).length = s.running.length := by rw [hr]; simp
  refine { hi with
    run_starts := ?_, run_nodup := ?_, fin_iff := ?_, ctr := ?_, bound := ?_, ended := ?_ }
  · intro p hp
    have : p.1 ∈ (l₁ ++ (t, b) :: l₂).map Prod.fst := List.mem_map.mpr ⟨p, hp, rfl⟩
    rw [hmap] at this
    obtain ⟨q, hq, hqp⟩ := List.mem_map.mp this
    rw [← hqp]; exact hi.run_starts q hq
  · simp only [hmap]; exact hi.run_nodup
  · intro x; simp only [hmem]; exact hi.fin_iff x
  · simp only [hlen]; exact hi.ctr
  · simp only [hlen]; exact hi.bound
  · intro h; have := hi.ended h; rw [hr] at this; simp at this

/-- Common part for the end of a task body. -/
theorem invA_finish {j : Job} {s : State} {l₁ l₂ : List (Nat × Stage)} {t : Nat} {b : Stage}
    (hi : InvA j s) (hr : s.running = l₁ ++ (t, .body) :: l₂) (hb : b ≠ .body)
    {res : Nat → TaskResult} {o : Outcome} :
    InvA j { s with results := res, running := l₁ ++ (t, b) :: l₂, hist := s.hist ++ [.finish t o] } := by
  have htr : (t, Stage.body) ∈ s.running := by rw [hr]; simp
  have hnt : (t, Stage.body) ∉ l₁ ++ (t, b) :: l₂ := by
    have hn := hi.run_nodup
    rw [hr] at hn
    simp only [List.map_append, List.map_cons] at hn
    have hn := List.nodup_append.mp hn
    intro h
    simp only [List.mem_append, List.mem_cons, Prod.mk.injEq] at h
    rcases h with h | ⟨_, h⟩ | h
    · exact hn.2.2 t (List.mem_map.mpr ⟨_, h, rfl⟩) t (by simp) rfl
    · exact hb h.symm
    · have := hn.2.1
      simp only [List.nodup_cons] at this
      exact this.1 (List.mem_map.mpr ⟨_, h, rfl⟩)
  have hmem : ∀ x, (x, Stage.body) ∈ l₁ ++ (t, b) :: l₂ ↔ (x, Stage.body) ∈ s.running ∧ x ≠ t := by
    intro x
    constructor
    · intro h
      have hx : x ≠ t := by rintro rfl; exact hnt h
      refine ⟨?_, hx⟩
      rw [hr]
      simp only [List.mem_append, List.mem_cons, Prod.mk.injEq] at h ⊢
      rcases h with h | ⟨h, _⟩ | h
      · exact .inl h
      · exact absurd h hx
      · exact .inr (.inr h)
    · rintro ⟨h, hx⟩
      rw [hr] at h
      simp only [List.mem_append, List.mem_cons, Prod.mk.injEq] at h ⊢
      rcases h with h | ⟨h, _⟩ | h
      · exact .inl h
      · exact absurd h hx
      · exact .inr (.inr h)
  have hmap : (l₁ ++ (t, b) :: l₂).map Prod.fst = s.running.map Prod.fst := by rw [hr]; simp
  have hlen : (l₁ ++ (t, b) :: l₂).length = s.running.length := by rw [hr]; simp
  have hts : t ∈ starts s.hist := hi.run_starts _ htr
  refine { hi with
    fresh := ?_, subs_nodup := ?_, subs_tasks := ?_, fifo := ?_
    run_starts := ?_, run_nodup := ?_, fin_iff := ?_, fin_nodup := ?_, ctr := ?_, num := ?_, bound := ?_
    ended := ?_ }
  · simpa using hi.fresh
  · simpa using hi.subs_nodup
  · simpa using hi.subs_tasks
  · simpa using hi.fifo
  · intro p hp
    have : p.1 ∈ (l₁ ++ (t, b) :: l₂).map Prod.fst := List.mem_map.mpr ⟨p, hp, rfl⟩
    rw [hmap] at this
    obtain ⟨q, hq, hqp⟩ := List.mem_map.mp this
    rw [← hqp]; simpa using hi.run_starts q hq
  · simp only [hmap]; exact hi.run_nodup
  · intro x
    simp only [hmem, fins_append, fins_finish, starts_append, starts_finish, List.append_nil,
      List.mem_append, List.mem_singleton]
    rw [hi.fin_iff x]
    by_cases hx : x = t
    · subst hx; simp [hts]
    · simp [hx]
  · simp only [fins_append, fins_finish]
    rw [List.nodup_append]
    refine ⟨hi.fin_nodup, by simp, ?_⟩
    intro a ha b hb hab
    simp at hb; subst hb; subst hab
    exact ((hi.fin_iff a).mp ha).2 htr
  · simp only [hlen]; exact hi.ctr
  · simpa using hi.num
  · simp only [hlen]; exact hi.bound
  · intro h; have := hi.ended h; rw [hr] at this; simp at this

theorem invA_step {j : Job} (hj : j.Topological) {s s' : State} (hi : InvA j s) (h : Step j s s') :
    InvA j s' := by
  cases h with
  | loopDrain hpc hs hp =>
    refine { hi with at_loop := by simp, at_wait := by simp, at_end := ?_, ended := ?_ }
    · intro _; exact ⟨hp, hs⟩
    · intro h; have := ended_with_pc h; simp at this
  | loopRead t suf hpc hs =>
    refine { hi with at_loop := by simp, at_wait := by simp, at_end := ?_, ended := ?_ }
    · intro h; rcases h with h | h
      · simp at h
      · have := ended_with_pc h; simp at this
    · intro h; have := ended_with_pc h; simp at this
  | submit t suf hpc hs =>
    have htmem : t ∈ s.pre ++ s.suf := by rw [hs]; simp
    have hnd : (s.pre ++ s.suf).Nodup := hi.sub.nodup hj.nodup
    have hsub : (s.pre ++ suf).Sublist (s.pre ++ s.suf) := by
      rw [hs]; exact List.Sublist.append (List.Sublist.refl _) (List.sublist_cons_self _ _)
    have hnt : t ∉ s.pre ++ suf := by
      rw [hs] at hnd
      have := List.nodup_append.mp hnd
      intro h
      rcases List.mem_append.mp h with h | h
      · exact this.2.2 t h t (by simp) rfl
      · have h2 := this.2.1
        simp only [List.nodup_cons] at h2
        exact h2.1 h
    have hended : ¬ ({ s with
        num := s.num + 1, counter := s.counter + 1, queue := s.queue ++ [t], suf := suf,
        hist := s.hist ++ [.submit t], pc := wrapPc suf } : State).Ended :=
      wrapPc_ne_ended suf
    refine { hi with
      sub := hsub.trans hi.sub, fresh := ?_, subs_nodup := ?_, subs_tasks := ?_, fifo := ?_
      run_starts := ?_, fin_iff := ?_, fin_nodup := ?_, ctr := ?_, num := ?_, at_loop := ?_
      at_wait := ?_, at_end := ?_, ended := fun h => absurd h hended }
    · intro x hx
      simp only [subs_append, subs_submit, List.mem_append, List.mem_singleton, not_or]
      refine ⟨hi.fresh x (hsub.subset hx), ?_⟩
      rintro rfl; exact hnt hx
    · simp only [subs_append, subs_submit]
      rw [List.nodup_append]
      refine ⟨hi.subs_nodup, by simp, ?_⟩
      intro a ha b hb hab
      simp at hb; subst hb; subst hab
      exact hi.fresh _ htmem ha
    · intro x hx
      simp only [subs_append, subs_submit, List.mem_append, List.mem_singleton] at hx
      rcases hx with hx | rfl
      · exact hi.subs_tasks x hx
      · exact hi.sub.subset htmem
    · simp [hi.fifo]
    · intro p hp; simpa using hi.run_starts p hp
    · intro x; simpa using hi.fin_iff x
    · simpa using hi.fin_nodup
    · simp [hi.ctr]; omega
    · simp [hi.num]
    · intro h1 h2
      rcases wrapPc_cases suf with ⟨h3, _⟩ | ⟨_, h4⟩
      · simp only at h1; rw [h1] at h3; cases h3
      · exact absurd h2 h4
    · intro h1
      rcases wrapPc_cases suf with ⟨_, h4⟩ | ⟨h3, _⟩
      · exact h4
      · simp only at h1; rw [h1] at h3; cases h3
    · rintro (h | h)
      · simp only at h
        rcases wrapPc_cases suf with ⟨h3, _⟩ | ⟨h3, _⟩ <;> rw [h] at h3 <;> cases h3
      · exact absurd h hended
  | readOk d ds hpc hr =>
    refine { hi with at_loop := by simp, at_wait := by simp, at_end := ?_, ended := ?_ }
    · intro h; rcases h with h | h
      · simp at h
      · have := ended_with_pc h; simp at this
    · intro h; have := ended_with_pc h; simp at this
  | readPending d ds t suf hpc hr hs =>
    have heq : s.pre ++ [t] ++ suf = s.pre ++ s.suf := by rw [hs]; simp
    have hended : ¬ ({ s with pre := s.pre ++ [t], suf := suf, pc := wrapPc suf } : State).Ended :=
      wrapPc_ne_ended suf
    refine { hi with
      sub := by simp only [heq]; exact hi.sub
      fresh := by simp only [heq]; exact hi.fresh
      at_loop := ?_, at_wait := ?_, at_end := ?_, ended := fun h => absurd h hended }
    · intro h1 h2
      rcases wrapPc_cases suf with ⟨h3, _⟩ | ⟨_, h4⟩
      · simp only at h1; rw [h1] at h3; cases h3
      · exact absurd h2 h4
    · intro h1
      rcases wrapPc_cases suf with ⟨_, h4⟩ | ⟨h3, _⟩
      · exact h4
      · simp only at h1; rw [h1] at h3; cases h3
    · rintro (h | h)
      · simp only at h
        rcases wrapPc_cases suf with ⟨h3, _⟩ | ⟨h3, _⟩ <;> rw [h] at h3 <;> cases h3
      · exact absurd h hended
  | readFail d ds hpc hr =>
    refine { hi with
      sub := by simp, fresh := by simp, at_loop := by simp, at_wait := by simp
      at_end := by simp, ended := ?_ }
    intro h
    have : (∃ n, Pc.loop = .returned n) ∨ (∃ t, Pc.loop = .rethrown t) := h
    simp at this
  | wake hpc he =>
    have hs := hi.at_wait hpc
    refine { hi with
      sub := by simpa using hi.sub
      fresh := by simpa using hi.fresh
      at_loop := by simp, at_wait := by simp
      at_end := ?_, ended := ?_ }
    · rintro (h | h)
      · simp at h
      · have : (∃ n, Pc.loop = .returned n) ∨ (∃ t, Pc.loop = .rethrown t) := h
        simp at this
    · intro h
      have : (∃ n, Pc.loop = .returned n) ∨ (∃ t, Pc.loop = .rethrown t) := h
      simp at this
  | rethrow t hpc hc he =>
    have hcc := hi.ctr
    rw [hc] at hcc
    refine { hi with
      at_loop := by simp, at_wait := by simp
      at_end := fun _ => hi.at_end (.inl hpc), ended := fun _ => ?_ }
    exact ⟨List.length_eq_zero_iff.mp (by simp only; omega), List.length_eq_zero_iff.mp (by simp only; omega)⟩
  | ret hpc hc he =>
    have hcc := hi.ctr
    rw [hc] at hcc
    refine { hi with
      at_loop := by simp, at_wait := by simp
      at_end := fun _ => hi.at_end (.inl hpc), ended := fun _ => ?_ }
    exact ⟨List.length_eq_zero_iff.mp (by simp only; omega), List.length_eq_zero_iff.mp (by simp only; omega)⟩
  | take t q hl hq =>
    have hts : t ∉ starts s.hist := by
      have hn := hi.subs_nodup
      rw [hi.fifo, hq] at hn
      have := List.nodup_append.mp hn
      intro h
      exact this.2.2 t h t (by simp) rfl
    have htr : ∀ st, (t, st) ∉ s.running := fun st h => hts (hi.run_starts _ h)
    refine { hi with
      fresh := ?_, subs_nodup := ?_, subs_tasks := ?_, fifo := ?_
      run_starts := ?_, run_nodup := ?_, fin_iff := ?_, fin_nodup := ?_, ctr := ?_, num := ?_, bound := ?_
      ended := ?_ }
    · simpa using hi.fresh
    · simpa using hi.subs_nodup
    · simpa using hi.subs_tasks
    · simp [hi.fifo, hq]
    · intro p hp
      simp only [starts_append, starts_start, List.mem_append, List.mem_singleton] at hp ⊢
      rcases hp with hp | rfl
      · exact .inl (hi.run_starts p hp)
      · exact .inr rfl
    · simp only [List.map_append, List.map_cons, List.map_nil]
      rw [List.nodup_append]
      refine ⟨hi.run_nodup, by simp, ?_⟩
      intro a ha b hb hab
      simp at hb; subst hb; subst hab
      obtain ⟨p, hp, hpe⟩ := List.mem_map.mp ha
      exact hts (hpe ▸ hi.run_starts p hp)
    · intro x
      simp only [fins_append, fins_start, starts_append, starts_start, List.append_nil,
        List.mem_append, List.mem_singleton, Prod.mk.injEq, and_true, not_or]
      rw [hi.fin_iff x]
      by_cases hx : x = t
      · subst hx; simp [hts]
      · simp [hx]
    · simpa using hi.fin_nodup
    · have := hi.ctr
      rw [hq] at this
      simp at this ⊢; omega
    · simpa using hi.num
    · simp; omega
    · intro h; have := hi.ended h; rw [hq] at this; simp at this
  | finSuccess l₁ t l₂ hr => exact invA_finish hi hr (by simp)
  | finFailure l₁ t l₂ hr => exact invA_finish hi hr (by simp)
  | finThrew l₁ t l₂ hr => exact invA_finish (res := s.results) hi hr (by simp)
  | store l₁ t l₂ hr => exact invA_stage (ev := s.event) hi hr (by simp) (by simp)
  | setEvent l₁ t l₂ hr => exact invA_stage (e := s.eptr) hi hr (by simp) (by simp)
  | unlock l₁ t l₂ hr =>
    have hmem : ∀ x, (x, Stage.body) ∈ l₁ ++ l₂ ↔ (x, Stage.body) ∈ s.running := by
      intro x; rw [hr]; simp
    have hsl : (l₁ ++ l₂).Sublist s.running := by
      rw [hr]; exact List.Sublist.append (List.Sublist.refl _) (List.sublist_cons_self _ _)
    refine { hi with
      run_starts := fun p hp => hi.run_starts p (hsl.subset hp)
      run_nodup := (hsl.map Prod.fst).nodup hi.run_nodup
      fin_iff := ?_, ctr := ?_, bound := ?_, ended := ?_ }
    · intro x; simp only [hmem]; exact hi.fin_iff x
    · have := hi.ctr; rw [hr] at this; simp at this ⊢; omega
    · have := hi.bound; rw [hr] at this; simp at this ⊢; omega
    · intro h; have := hi.ended h; rw [hr] at this; simp at this

theorem invA {j : Job} (hj : j.Topological) {s : State} (h : Reachable j s) : InvA j s :=
  reachable_induction (invA_init j) (fun _ _ hi hs => invA_step hj hi hs) s h

end Maike.TaskList

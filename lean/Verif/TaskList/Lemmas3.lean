import Verif.TaskList.Lemmas2

/-! # Progress and termination of `TaskList::process` -/

namespace Maike.TaskList

/-! ## Invariant W: no wake-up is lost

`snap` is the history when the current pass over the list began, `recent` is what has happened since. -/

structure InvW (j : Job) (s : State) (snap recent : List Ev) : Prop where
  hist : s.hist = snap ++ recent
  fin : s.event = false → ∀ t o, .finish t o ∈ recent →
    (t, Stage.throwing) ∈ s.running ∨ (t, Stage.exiting) ∈ s.running
  sub : s.event = false → ∀ t, .submit t ∈ recent → t ∈ s.queue ∨ (t, Stage.body) ∈ s.running ∨
    (t, Stage.throwing) ∈ s.running ∨ (t, Stage.exiting) ∈ s.running
  pre : ∀ p ∈ s.pre, ∃ d ∈ j.deps p, d ∈ j.tasks ∧ ∀ o, .finish d o ∈ snap → o = .threw
  wait : s.pc = .waiting → s.pre = [] → ∃ t, .submit t ∈ recent

theorem invW_init (j : Job) : InvW j (init j) [] [] := by
  constructor <;> simp [init]

theorem invW_step {j : Job} {s s' : State} (hb : InvB j s) (hw : ∃ a b, InvW j s a b)
    (h : Step j s s') : ∃ a b, InvW j s' a b := by
  obtain ⟨snap, recent, hw⟩ := hw
  cases h with
  | loopDrain hpc hs hp => exact ⟨snap, recent, { hw with wait := by simp }⟩
  | loopRead t suf hpc hs => exact ⟨snap, recent, { hw with wait := by simp }⟩
  | submit t suf hpc hs =>
    refine ⟨snap, recent ++ [.submit t], ?_, ?_, ?_, hw.pre, ?_⟩
    · simp [hw.hist]
    · intro he x o hx; simp at hx; exact hw.fin he x o hx
    · intro he x hx
      simp at hx
      rcases hx with hx | rfl
      · rcases hw.sub he x hx with h | h
        · exact .inl (List.mem_append_left _ h)
        · exact .inr h
      · left; simp
    · intro _ _; exact ⟨t, by simp⟩
  | readOk d ds hpc hr => exact ⟨snap, recent, { hw with wait := by simp }⟩
  | readPending d ds t suf hpc hr hs =>
    refine ⟨snap, recent, { hw with pre := ?_, wait := by simp }⟩
    intro p hp
    rcases List.mem_append.mp hp with hp | hp
    · exact hw.pre p hp
    · simp at hp; subst hp
      obtain ⟨t', suf', checked, h1, h2, h3⟩ := hb.reading _ hpc
      rw [hs] at h1; simp at h1
      obtain ⟨rfl, rfl⟩ := h1
      have hns : s.results d ≠ .success := by rw [hr]; simp
      have hnf : s.results d ≠ .failure := by rw [hr]; simp
      rw [ne_eq, hb.res_succ, not_or, Classical.not_not] at hns
      rw [ne_eq, hb.res_fail] at hnf
      refine ⟨d, by simp [h2], hns.1, ?_⟩
      intro o ho
      have : .finish d o ∈ s.hist := by rw [hw.hist]; exact List.mem_append_left _ ho
      cases o with
      | success => exact absurd this hns.2
      | failure => exact absurd this hnf
      | threw => rfl
  | readFail d ds hpc hr =>
    exact ⟨snap, recent, { hw with pre := by simp, wait := by simp }⟩
  | wake hpc he =>
    refine ⟨s.hist, [], by simp, by simp, by simp, by simp, by simp⟩
  | rethrow t hpc hc he => exact ⟨snap, recent, { hw with wait := by simp }⟩
  | ret hpc hc he => exact ⟨snap, recent, { hw with wait := by simp }⟩
  | take t q hl hq =>
    refine ⟨snap, recent ++ [.start t], ?_, ?_, ?_, hw.pre, ?_⟩
    · simp [hw.hist]
    · intro he x o hx; simp at hx
      rcases hw.fin he x o hx with h | h
      · exact .inl (List.mem_append_left _ h)
      · exact .inr (List.mem_append_left _ h)
    · intro he x hx
      simp at hx
      rcases hw.sub he x hx with h | h | h | h
      · rw [hq] at h
        rcases List.mem_cons.mp h with rfl | h
        · right; left; simp
        · exact .inl h
      · exact .inr (.inl (List.mem_append_left _ h))
      · exact .inr (.inr (.inl (List.mem_append_left _ h)))
      · exact .inr (.inr (.inr (List.mem_append_left _ h)))
    · intro h1 h2
      obtain ⟨x, hx⟩ := hw.wait h1 h2
      exact ⟨x, by simp [hx]⟩
  | finSuccess l₁ t l₂ hr =>
    refine ⟨snap, recent ++ [.finish t .success], ?_, ?_, ?_, hw.pre, ?_⟩
    · simp [hw.hist]
    · intro he x o hx
      simp at hx
      rcases hx with hx | ⟨rfl, _⟩
      · have := hw.fin he x o hx
        rw [hr] at this; simp at this ⊢
        rcases this with (h | h) | h | h <;> simp [h]
      · right; simp
    · intro he x hx
      simp at hx
      have := hw.sub he x hx
      rw [hr] at this; simp at this ⊢
      rcases this with h | (h | h | h) | (h | h) | h | h <;> simp [h]
    · intro h1 h2
      obtain ⟨x, hx⟩ := hw.wait h1 h2
      exact ⟨x, by simp [hx]⟩
  | finFailure l₁ t l₂ hr =>
    refine ⟨snap, recent ++ [.finish t .failure], ?_, ?_, ?_, hw.pre, ?_⟩
    · simp [hw.hist]
    · intro he x o hx
      simp at hx
      rcases hx with hx | ⟨rfl, _⟩
      · have := hw.fin he x o hx
        rw [hr] at this; simp at this ⊢
        rcases this with (h | h) | h | h <;> simp [h]
      · left; simp
    · intro he x hx
      simp at hx
      have := hw.sub he x hx
      rw [hr] at this; simp at this ⊢
      rcases this with h | (h | h | h) | (h | h) | h | h <;> simp [h]
    · intro h1 h2
      obtain ⟨x, hx⟩ := hw.wait h1 h2
      exact ⟨x, by simp [hx]⟩
  | finThrew l₁ t l₂ hr =>
    refine ⟨snap, recent ++ [.finish t .threw], ?_, ?_, ?_, hw.pre, ?_⟩
    · simp [hw.hist]
    · intro he x o hx
      simp at hx
      rcases hx with hx | ⟨rfl, _⟩
      · have := hw.fin he x o hx
        rw [hr] at this; simp at this ⊢
        rcases this with (h | h) | h | h <;> simp [h]
      · left; simp
    · intro he x hx
      simp at hx
      have := hw.sub he x hx
      rw [hr] at this; simp at this ⊢
      rcases this with h | (h | h | h) | (h | h) | h | h <;> simp [h]
    · intro h1 h2
      obtain ⟨x, hx⟩ := hw.wait h1 h2
      exact ⟨x, by simp [hx]⟩
  | store l₁ t l₂ hr =>
    refine ⟨snap, recent, { hw with fin := ?_, sub := ?_ }⟩
    · intro he x o hx
      have := hw.fin he x o hx
      rw [hr] at this; simp at this ⊢
      rcases this with (h | h | h) | h | h <;> simp [h]
    · intro he x hx
      have := hw.sub he x hx
      rw [hr] at this; simp at this ⊢
      rcases this with h | (h | h) | (h | h | h) | h | h <;> simp [h]
  | setEvent l₁ t l₂ hr =>
    exact ⟨snap, recent, { hw with fin := by simp, sub := by simp }⟩
  | unlock l₁ t l₂ hr =>
    refine ⟨snap, recent, { hw with fin := ?_, sub := ?_ }⟩
    · intro he x o hx
      have := hw.fin he x o hx
      rw [hr] at this; simp at this ⊢
      exact this
    · intro he x hx
      have := hw.sub he x hx
      rw [hr] at this; simp at this ⊢
      exact this

/-! ## All invariants together -/

structure Inv (j : Job) (s : State) : Prop where
  a : InvA j s
  b : InvB j s
  c : InvC s
  w : ∃ snap recent, InvW j s snap recent

theorem inv_step {j : Job} (hj : j.Topological) {s s' : State} (h : Inv j s) (hs : Step j s s') :
    Inv j s' :=
  ⟨invA_step hj h.a hs, invB_step h.a h.b hs, invC_step h.a h.c hs, invW_step h.b h.w hs⟩

theorem inv {j : Job} (hj : j.Topological) {s : State} (h : Reachable j s) : Inv j s :=
  reachable_induction (P := Inv j)
    ⟨invA_init j, invB_init j, invC_init j, ⟨_, _, invW_init j⟩⟩
    (fun _ _ hi hs => inv_step hj hi hs) s h

/-! ## Progress -/

theorem work_enabled {k : Nat} {s : State} {p : Nat × Stage} (h : s.running[k]? = some p) :
    ∃ s', stepWork k .success s = some s' := by
  obtain ⟨t, st⟩ := p
  cases st <;> simp [stepWork, h]

/-- In a stuck state, `process` has ended, or it waits in vain for a task that threw without
recording its result. -/
theorem stuck_cases {j : Job} (hj : j.Topological) (hwk : 1 ≤ j.workers) {s : State}
    (hi : Inv j s) (hst : Stuck j s) :
    s.Ended ∨ (s.pc = .waiting ∧ ∃ u ∈ s.pre, ∃ d ∈ j.deps u, .finish d .threw ∈ s.hist) := by
  have hrun : s.running = [] := by
    rcases h : s.running with _ | ⟨p, l⟩
    · rfl
    · obtain ⟨s', hs'⟩ := work_enabled (s := s) (k := 0) (p := p) (by simp [h])
      have := hst (.work 0 .success)
      simp only [step] at this
      rw [this] at hs'; cases hs'
  have hq : s.queue = [] := by
    rcases h : s.queue with _ | ⟨t, q⟩
    · rfl
    · have := hst .take
      simp only [step, stepTake, hrun, h, List.length_nil] at this
      rw [if_pos (by omega)] at this
      simp at this
  have hm : stepMain j s = none := hst .main
  unfold stepMain at hm
  split at hm
  · rename_i hpc
    split at hm
    · rename_i hs
      rw [if_pos (hi.a.at_loop hpc hs)] at hm; simp at hm
    · simp at hm
  · rename_i hpc
    obtain ⟨t, suf, _, h, _⟩ := hi.b.reading _ hpc
    rw [h] at hm; simp at hm
  · rename_i d ds hpc
    obtain ⟨t, suf, _, h, _⟩ := hi.b.reading _ hpc
    rw [h] at hm
    split at hm <;> simp at hm
  · rename_i hpc
    split at hm
    · simp at hm
    · rename_i he
      right
      refine ⟨hpc, ?_⟩
      have he : s.event = false := by simpa using he
      obtain ⟨snap, recent, hw⟩ := hi.w
      have hsuf := hi.a.at_wait hpc
      rcases hp : s.pre with _ | ⟨p, rest⟩
      · obtain ⟨t, ht⟩ := hw.wait hpc hp
        have := hw.sub he t ht
        rw [hrun, hq] at this; simp at this
      · obtain ⟨d, hd, hdt, hthr⟩ := hw.pre p (by rw [hp]; simp)
        by_cases hbad : .finish d .threw ∈ s.hist
        · exact ⟨p, by simp, d, hd, hbad⟩
        · exfalso
          have hnf : d ∉ fins s.hist := by
            intro h
            obtain ⟨o, ho⟩ := mem_fins.mp h
            rw [hw.hist] at ho
            rcases List.mem_append.mp ho with ho' | ho'
            · have := hthr o ho'
              subst this
              exact hbad (by rw [hw.hist]; exact ho)
            · have := hw.fin he d o ho'
              rw [hrun] at this; simp at this
          have hns : d ∉ starts s.hist := by
            intro h
            exact hnf ((hi.a.fin_iff d).mpr ⟨h, by rw [hrun]; simp⟩)
          have hnsub : d ∉ subs s.hist := by
            rw [hi.a.fifo, hq]; simpa using hns
          have hmem : d ∈ s.pre := by
            rcases hi.b.cover with h | ⟨h, _⟩
            · rcases h d hdt with h | h
              · rw [hsuf] at h; simpa using h
              · exact absurd h hnsub
            · rw [hp] at h; cases h
          -- `d` comes before `p` in the task list, so it cannot come after `p` in `pre`
          have hsl : (p :: rest).Sublist j.tasks := by
            have := hi.a.sub
            rw [hsuf, hp] at this; simpa using this
          have hpt : p ∈ j.tasks := hsl.subset (by simp)
          obtain ⟨l₁, l₂, hl⟩ := List.append_of_mem hpt
          have hdl := hj.ordered l₁ p l₂ hl d hd hdt
          have hnd := hj.nodup
          rw [hl] at hnd hsl
          have hnd' := List.nodup_append.mp hnd
          have hdp : d ≠ p := hnd'.2.2 d hdl p (by simp)
          have hdr : d ∈ rest := by
            rw [hp] at hmem
            rcases List.mem_cons.mp hmem with h | h
            · exact absurd h hdp
            · exact h
          -- `[p, d]` is a sublist of `l₁ ++ p :: l₂`
          have hpd : [p, d].Sublist (l₁ ++ p :: l₂) :=
            (List.Sublist.cons_cons p (List.singleton_sublist.mpr hdr)).trans hsl
          obtain ⟨r₁, r₂, hr, hr1, hr2⟩ := List.sublist_append_iff.mp hpd
          rcases r₁ with _ | ⟨x, r₁⟩
          · simp at hr; subst hr
            have : d ∈ p :: l₂ := hr2.subset (by simp)
            exact hnd'.2.2 d hdl d this rfl
          · simp at hr
            have : p ∈ l₁ := by rw [hr.1]; exact hr1.subset (by simp)
            exact hnd'.2.2 p this p (by simp) rfl
  · rename_i hpc
    have hc : s.counter = 0 := by rw [hi.a.ctr, hq, hrun]; rfl
    rw [if_pos hc] at hm
    split at hm <;> simp at hm
  · rename_i n hpc; exact .inl (.inl ⟨n, hpc⟩)
  · rename_i n hpc; exact .inl (.inr ⟨n, hpc⟩)

/-! ## Termination -/

/-- What a list of tasks costs in a pass of the main thread. -/
def passCost (j : Job) : List Nat → Nat
  | [] => 0
  | t :: l => (j.deps t).length + 3 + passCost j l

theorem passCost_append (j : Job) (a b : List Nat) :
    passCost j (a ++ b) = passCost j a + passCost j b := by
  induction a with
  | nil => simp [passCost]
  | cons x a ih => simp only [List.cons_append, passCost, ih]; omega

theorem passCost_sublist (j : Job) {a b : List Nat} (h : a.Sublist b) :
    passCost j a ≤ passCost j b := by
  induction h with
  | slnil => exact Nat.le_refl _
  | cons x _ ih => simp only [passCost]; omega
  | cons_cons x _ ih => simp only [passCost]; omega

def mainPot (j : Job) (s : State) : Nat :=
  match s.pc with
  | .loop => passCost j s.suf + 4
  | .reading ds => ds.length + 2 + passCost j s.suf.tail + 4
  | .waiting => 3
  | .draining => 1
  | .returned _ => 0
  | .rethrown _ => 0

/-- Value of the event, and of a task which has not yet set it. -/
def evVal (j : Job) : Nat := passCost j j.tasks + 2

def stagePot (j : Job) : Stage → Nat
  | .body => evVal j + 4
  | .throwing => evVal j + 3
  | .exiting => evVal j + 2
  | .unlocking => 1

def runPot (j : Job) : List (Nat × Stage) → Nat
  | [] => 0
  | p :: l => stagePot j p.2 + runPot j l

theorem runPot_append (j : Job) (a b) : runPot j (a ++ b) = runPot j a + runPot j b := by
  induction a with
  | nil => simp [runPot]
  | cons x a ih => simp only [List.cons_append, runPot, ih]; omega

def pot (j : Job) (s : State) : Nat :=
  mainPot j s + (s.pre.length + s.suf.length) * (evVal j + 6) + s.queue.length * (evVal j + 5) +
    runPot j s.running + (if s.event then evVal j else 0)

theorem pot_step {j : Job} {s s' : State} (hi : InvA j s) (hb : InvB j s) (h : Step j s s') :
    pot j s' < pot j s := by
  unfold pot
  cases h with
  | loopDrain hpc hs hp =>
    simp only [mainPot, hpc, hs, passCost]; omega
  | loopRead t suf hpc hs =>
    simp only [mainPot, hpc, hs, passCost, List.tail_cons]; omega
  | submit t suf hpc hs =>
    have e1 : (s.pre.length + s.suf.length) * (evVal j + 6) =
        (s.pre.length + suf.length) * (evVal j + 6) + (evVal j + 6) := by
      rw [hs, List.length_cons, ← Nat.add_assoc, Nat.add_one_mul]
    have e2 : (s.queue ++ [t]).length * (evVal j + 5) =
        s.queue.length * (evVal j + 5) + (evVal j + 5) := by
      rw [List.length_append, List.length_singleton, Nat.add_one_mul]
    have e3 : mainPot j s = 2 + passCost j suf + 4 := by simp [mainPot, hpc, hs]
    simp only [e1, e2, e3]
    rcases wrapPc_cases suf with ⟨h, _⟩ | ⟨h, _⟩ <;> simp only [mainPot, h] <;> omega
  | readOk d ds hpc hr =>
    simp only [mainPot, hpc, List.length_cons]; omega
  | readPending d ds t suf hpc hr hs =>
    have e1 : (s.pre ++ [t]).length + suf.length = s.pre.length + s.suf.length := by
      rw [hs, List.length_append, List.length_singleton, List.length_cons]; omega
    have e3 : mainPot j s = ds.length + 1 + 2 + passCost j suf + 4 := by simp [mainPot, hpc, hs]
    simp only [e1, e3]
    rcases wrapPc_cases suf with ⟨h, _⟩ | ⟨h, _⟩ <;> simp only [mainPot, h] <;> omega
  | readFail d ds hpc hr =>
    simp only [mainPot, hpc, passCost, List.length_nil, List.length_cons, Nat.add_zero, Nat.zero_mul]; omega
  | wake hpc he =>
    have e1 : passCost j (s.pre ++ s.suf) ≤ passCost j j.tasks := passCost_sublist j hi.sub
    have e2 : evVal j = passCost j j.tasks + 2 := rfl
    simp only [mainPot, hpc, he, List.length_append, List.length_nil, if_true, Nat.zero_add]
    simp only [Bool.false_eq_true, if_false]
    omega
  | rethrow t hpc hc he => simp only [mainPot, hpc]; omega
  | ret hpc hc he => simp only [mainPot, hpc]; omega
  | take t q hl hq =>
    simp only [mainPot, hq, List.length_cons, runPot_append, runPot, stagePot, Nat.add_one_mul]; omega
  | finSuccess l₁ t l₂ hr =>
    simp only [mainPot, hr, runPot_append, runPot, stagePot]; omega
  | finFailure l₁ t l₂ hr =>
    simp only [mainPot, hr, runPot_append, runPot, stagePot]; omega
  | finThrew l₁ t l₂ hr =>
    simp only [mainPot, hr, runPot_append, runPot, stagePot]; omega
  | store l₁ t l₂ hr =>
    simp only [mainPot, hr, runPot_append, runPot, stagePot]; omega
  | setEvent l₁ t l₂ hr =>
    simp only [mainPot, hr, runPot_append, runPot, stagePot, if_true]
    split <;> omega
  | unlock l₁ t l₂ hr =>
    simp only [mainPot, hr, runPot_append, runPot, stagePot]; omega

theorem exec_length {j : Job} (hj : j.Topological) (as : List Act) (s s' : State)
    (hi : Inv j s) (h : exec j as s = some s') : as.length + pot j s' ≤ pot j s := by
  induction as generalizing s with
  | nil => simp [exec] at h; subst h; simp
  | cons a as ih =>
    simp only [exec] at h
    split at h
    · rename_i s1 hs1
      have hst := step_Step hs1
      have h1 := pot_step hi.a hi.b hst
      have h2 := ih s1 (inv_step hj hi hst) h
      simp only [List.length_cons]; omega
    · simp at h

end Maike.TaskList

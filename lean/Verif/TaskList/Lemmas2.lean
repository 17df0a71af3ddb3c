import Verif.TaskList.Lemmas

/-! # Invariants of `TaskList::process`, continued: results, exceptions, wake-ups -/

namespace Maike.TaskList

theorem snoc_split {α : Type} {h h₁ h₂ : List α} {e x : α} (hh : h ++ [e] = h₁ ++ x :: h₂) :
    (h₂ = [] ∧ h = h₁ ∧ e = x) ∨ ∃ h₃, h₂ = h₃ ++ [e] ∧ h = h₁ ++ x :: h₃ := by
  rcases List.eq_nil_or_concat h₂ with rfl | ⟨h₃, y, rfl⟩
  · have := List.append_inj' hh rfl
    exact .inl ⟨rfl, this.1, by simpa using this.2⟩
  · have hh' : h ++ [e] = (h₁ ++ x :: h₃) ++ [y] := by simpa using hh
    have := List.append_inj' hh' rfl
    have hy : e = y := by simpa using this.2
    subst hy
    exact .inr ⟨h₃, by simp, this.1⟩

theorem finish_unique {h : List Ev} (hn : (fins h).Nodup) {t : Nat} {o o' : Outcome}
    (h1 : .finish t o ∈ h) (h2 : .finish t o' ∈ h) : o = o' := by
  induction h with
  | nil => cases h1
  | cons e h ih =>
    have hc : fins (e :: h) = fins [e] ++ fins h := by rw [← fins_append]; rfl
    rw [hc] at hn
    have hn' := List.nodup_append.mp hn
    cases h1 with
    | head =>
      cases h2 with
      | head => rfl
      | tail _ h2 => exact absurd rfl (hn'.2.2 t (by simp) t (mem_fins.mpr ⟨_, h2⟩))
    | tail _ h1 =>
      cases h2 with
      | head => exact absurd rfl (hn'.2.2 t (by simp) t (mem_fins.mpr ⟨_, h1⟩))
      | tail _ h2 => exact ih hn'.2.1 h1 h2

/-! ## Invariant B: results and order of events -/

structure InvB (j : Job) (s : State) : Prop where
  res_succ : ∀ t, s.results t = .success ↔ t ∉ j.tasks ∨ .finish t .success ∈ s.hist
  res_fail : ∀ t, s.results t = .failure ↔ .finish t .failure ∈ s.hist
  submit_ok : ∀ h₁ t h₂, s.hist = h₁ ++ .submit t :: h₂ → ∀ d ∈ j.deps t, d ∈ j.tasks →
    .finish d .success ∈ h₁
  start_ok : ∀ h₁ t h₂, s.hist = h₁ ++ .start t :: h₂ → .submit t ∈ h₁
  finish_ok : ∀ h₁ t o h₂, s.hist = h₁ ++ .finish t o :: h₂ → .start t ∈ h₁
  reading : ∀ ds, s.pc = .reading ds → ∃ t suf checked, s.suf = t :: suf ∧
    j.deps t = checked ++ ds ∧ ∀ d ∈ checked, s.results d = .success
  cover : (∀ t ∈ j.tasks, t ∈ s.pre ++ s.suf ∨ t ∈ subs s.hist) ∨
    (s.pre = [] ∧ s.suf = [] ∧ ∃ u ∈ j.tasks, u ∉ subs s.hist ∧
      ∃ d ∈ j.deps u, .finish d .failure ∈ s.hist)

theorem invB_init (j : Job) : InvB j (init j) := by
  constructor <;> simp [init]
  intro t; split <;> simp

theorem invB_finish {j : Job} {s : State} {l₁ l₂ : List (Nat × Stage)} {t : Nat}
    (ha : InvA j s) (hb : InvB j s) (hr : s.running = l₁ ++ (t, .body) :: l₂)
    {o : Outcome} {res : Nat → TaskResult} {run : List (Nat × Stage)}
    (hres : match o with
      | .success => res = setResult s.results t .success
      | .failure => res = setResult s.results t .failure
      | .threw => res = s.results) :
    InvB j { s with results := res, running := run, hist := s.hist ++ [.finish t o] } := by
  have htr : (t, Stage.body) ∈ s.running := by rw [hr]; simp
  have hts : t ∈ starts s.hist := ha.run_starts _ htr
  have hnf : ∀ o', .finish t o' ∉ s.hist := by
    intro o' h
    exact ((ha.fin_iff t).mp (mem_fins.mpr ⟨_, h⟩)).2 htr
  have htt : t ∈ j.tasks := ha.subs_tasks t (by rw [ha.fifo]; exact List.mem_append_left _ hts)
  have hpend : s.results t = .pending := by
    rcases h : s.results t with _ | _ | _
    · rfl
    · rcases (hb.res_succ t).mp h with h | h
      · exact absurd htt h
      · exact absurd h (hnf _)
    · exact absurd ((hb.res_fail t).mp h) (hnf _)
  have hmono : ∀ d, s.results d = .success → res d = .success := by
    intro d hd
    have hdt : d ≠ t := by rintro rfl; rw [hpend] at hd; cases hd
    cases o <;> simp only at hres <;> subst hres
    · simp [setResult, hdt, hd]
    · simp [setResult, hdt, hd]
    · exact hd
  refine { hb with
    res_succ := ?_, res_fail := ?_, submit_ok := ?_, start_ok := ?_, finish_ok := ?_
    reading := ?_, cover := ?_ }
  · intro x
    simp only [List.mem_append, List.mem_singleton, Ev.finish.injEq]
    have hx := hb.res_succ x
    cases o <;> simp only at hres <;> subst hres
    · by_cases hxt : x = t
      · subst hxt; simp [setResult]
      · simp [setResult, hxt, hx]
    · by_cases hxt : x = t
      · subst hxt; simp [setResult, htt, hnf]
      · simp [setResult, hxt, hx]
    · simp [hx]
  · intro x
    simp only [List.mem_append, List.mem_singleton, Ev.finish.injEq]
    have hx := hb.res_fail x
    cases o <;> simp only at hres <;> subst hres
    · by_cases hxt : x = t
      · subst hxt; simp [setResult, hnf]
      · simp [setResult, hxt, hx]
    · by_cases hxt : x = t
      · subst hxt; simp [setResult]
      · simp [setResult, hxt, hx]
    · simp [hx]
  · intro h₁ u h₂ hh d hd hdt
    rcases snoc_split hh with ⟨_, _, h⟩ | ⟨h₃, _, h⟩
    · cases h
    · exact hb.submit_ok _ _ _ h d hd hdt
  · intro h₁ u h₂ hh
    rcases snoc_split hh with ⟨_, _, h⟩ | ⟨h₃, _, h⟩
    · cases h
    · exact hb.start_ok _ _ _ h
  · intro h₁ u o' h₂ hh
    rcases snoc_split hh with ⟨_, h, h'⟩ | ⟨h₃, _, h⟩
    · simp only [Ev.finish.injEq] at h'
      rw [← h, ← h'.1]; exact mem_starts.mp hts
    · exact hb.finish_ok _ _ _ _ h
  · intro ds hds
    obtain ⟨u, suf, checked, h1, h2, h3⟩ := hb.reading ds hds
    exact ⟨u, suf, checked, h1, h2, fun d hd => hmono d (h3 d hd)⟩
  · rcases hb.cover with h | ⟨h1, h2, u, h3, h4, d, h5, h6⟩
    · left; intro x hx; simpa using h x hx
    · right
      exact ⟨h1, h2, u, h3, by simpa using h4, d, h5, List.mem_append_left _ h6⟩

theorem invB_step {j : Job} {s s' : State} (ha : InvA j s) (hb : InvB j s) (h : Step j s s') :
    InvB j s' := by
  cases h with
  | loopDrain hpc hs hp => exact { hb with reading := by simp }
  | loopRead t suf hpc hs =>
    refine { hb with reading := ?_ }
    intro ds hds
    simp at hds
    exact ⟨t, suf, [], hs, by simp [hds], by simp⟩
  | submit t suf hpc hs =>
    obtain ⟨t', suf', checked, h1, h2, h3⟩ := hb.reading [] hpc
    rw [hs] at h1
    simp at h1
    obtain ⟨rfl, rfl⟩ := h1
    simp at h2
    refine { hb with
      res_succ := ?_, res_fail := ?_, submit_ok := ?_, start_ok := ?_, finish_ok := ?_
      reading := ?_, cover := ?_ }
    · intro x; simpa using hb.res_succ x
    · intro x; simpa using hb.res_fail x
    · intro h₁ u h₂ hh d hd hdt
      rcases snoc_split hh with ⟨_, h, h'⟩ | ⟨h₃, _, h⟩
      · simp only [Ev.submit.injEq] at h'
        subst h'; rw [← h]
        rw [h2] at hd
        rcases (hb.res_succ d).mp (h3 d hd) with h | h
        · exact absurd hdt h
        · exact h
      · exact hb.submit_ok _ _ _ h d hd hdt
    · intro h₁ u h₂ hh
      rcases snoc_split hh with ⟨_, _, h⟩ | ⟨h₃, _, h⟩
      · cases h
      · exact hb.start_ok _ _ _ h
    · intro h₁ u o h₂ hh
      rcases snoc_split hh with ⟨_, _, h⟩ | ⟨h₃, _, h⟩
      · cases h
      · exact hb.finish_ok _ _ _ _ h
    · intro ds hds
      simp only at hds
      rcases wrapPc_cases suf with ⟨h, _⟩ | ⟨h, _⟩ <;> rw [hds] at h <;> cases h
    · left
      rcases hb.cover with h | ⟨_, h, _⟩
      · intro x hx
        have := h x hx
        rw [hs] at this
        simp only [List.mem_append, List.mem_cons, subs_append, subs_submit, List.mem_singleton] at this ⊢
        rcases this with (h | h | h) | h
        · exact .inl (.inl h)
        · exact .inr (.inr (by simp [h]))
        · exact .inl (.inr h)
        · exact .inr (.inl h)
      · rw [hs] at h; cases h
  | readOk d ds hpc hr =>
    refine { hb with reading := ?_ }
    intro ds' hds
    simp at hds; subst hds
    obtain ⟨t, suf, checked, h1, h2, h3⟩ := hb.reading _ hpc
    refine ⟨t, suf, checked ++ [d], h1, by simp [h2], ?_⟩
    intro x hx
    rcases List.mem_append.mp hx with hx | hx
    · exact h3 x hx
    · simp at hx; subst hx; exact hr
  | readPending d ds t suf hpc hr hs =>
    refine { hb with reading := ?_, cover := ?_ }
    · intro ds hds
      simp only at hds
      rcases wrapPc_cases suf with ⟨h, _⟩ | ⟨h, _⟩ <;> rw [hds] at h <;> cases h
    · have heq : s.pre ++ [t] ++ suf = s.pre ++ s.suf := by rw [hs]; simp
      rcases hb.cover with h | ⟨_, h, _⟩
      · left; simp only [heq]; exact h
      · rw [hs] at h; cases h
  | readFail d ds hpc hr =>
    refine { hb with reading := by simp, cover := ?_ }
    right
    obtain ⟨t, suf, checked, h1, h2, h3⟩ := hb.reading _ hpc
    have htm : t ∈ s.pre ++ s.suf := by rw [h1]; simp
    refine ⟨rfl, rfl, t, ha.sub.subset htm, ha.fresh t htm, d, by simp [h2], ?_⟩
    exact (hb.res_fail d).mp hr
  | wake hpc he =>
    refine { hb with reading := by simp, cover := ?_ }
    rcases hb.cover with h | ⟨h1, h2, h3⟩
    · left; simpa using h
    · right; exact ⟨rfl, by simp [h1, h2], h3⟩
  | rethrow t hpc hc he => exact { hb with reading := by simp }
  | ret hpc hc he => exact { hb with reading := by simp }
  | take t q hl hq =>
    refine { hb with
      res_succ := ?_, res_fail := ?_, submit_ok := ?_, start_ok := ?_, finish_ok := ?_
      cover := ?_ }
    · intro x; simpa using hb.res_succ x
    · intro x; simpa using hb.res_fail x
    · intro h₁ u h₂ hh d hd hdt
      rcases snoc_split hh with ⟨_, _, h⟩ | ⟨h₃, _, h⟩
      · cases h
      · exact hb.submit_ok _ _ _ h d hd hdt
    · intro h₁ u h₂ hh
      rcases snoc_split hh with ⟨_, h, h'⟩ | ⟨h₃, _, h⟩
      · simp only [Ev.start.injEq] at h'
        subst h'; rw [← h, ← mem_subs, ha.fifo, hq]; simp
      · exact hb.start_ok _ _ _ h
    · intro h₁ u o h₂ hh
      rcases snoc_split hh with ⟨_, _, h⟩ | ⟨h₃, _, h⟩
      · cases h
      · exact hb.finish_ok _ _ _ _ h
    · rcases hb.cover with h | ⟨h1, h2, u, h3, h4, d, h5, h6⟩
      · left; intro x hx; simpa using h x hx
      · right
        exact ⟨h1, h2, u, h3, by simpa using h4, d, h5, List.mem_append_left _ h6⟩
  | finSuccess l₁ t l₂ hr => exact invB_finish ha hb hr rfl
  | finFailure l₁ t l₂ hr => exact invB_finish ha hb hr rfl
  | finThrew l₁ t l₂ hr => exact invB_finish ha hb hr rfl
  | store l₁ t l₂ hr => exact { hb with }
  | setEvent l₁ t l₂ hr => exact { hb with }
  | unlock l₁ t l₂ hr => exact { hb with }

/-! ## Invariant C: exceptions and the way `process` ends -/

/-- The task ended with an exception. -/
def Bad (h : List Ev) (t : Nat) : Prop := .finish t .failure ∈ h ∨ .finish t .threw ∈ h

structure InvC (s : State) : Prop where
  thr : ∀ t, (t, Stage.throwing) ∈ s.running → Bad s.hist t
  eptr_ok : ∀ t, s.eptr = some t → Bad s.hist t
  eptr_cov : ¬ s.Ended → ∀ t, Bad s.hist t → s.eptr ≠ none ∨ (t, Stage.throwing) ∈ s.running
  ended_ret : ∀ n, s.pc = .returned n → n = s.num ∧ ∀ t, ¬ Bad s.hist t
  ended_thr : ∀ t, s.pc = .rethrown t → Bad s.hist t

theorem invC_init (j : Job) : InvC (init j) := by
  constructor <;> simp [init, Bad]

theorem bad_snoc {h : List Ev} {e : Ev} {t : Nat} : Bad (h ++ [e]) t ↔
    Bad h t ∨ e = .finish t .failure ∨ e = .finish t .threw := by
  simp only [Bad, List.mem_append, List.mem_singleton]
  constructor
  · rintro ((h | h) | (h | h))
    · exact .inl (.inl h)
    · exact .inr (.inl h.symm)
    · exact .inl (.inr h)
    · exact .inr (.inr h.symm)
  · rintro ((h | h) | (h | h))
    · exact .inl (.inl h)
    · exact .inr (.inl h)
    · exact .inl (.inr h.symm)
    · exact .inr (.inr h.symm)

theorem running_not_ended {j : Job} {s : State} (ha : InvA j s) {l₁ l₂ p}
    (hr : s.running = l₁ ++ p :: l₂) : ¬ s.Ended := by
  intro h; have := ha.ended h; rw [hr] at this; simp at this

theorem queue_not_ended {j : Job} {s : State} (ha : InvA j s) {t q}
    (hr : s.queue = t :: q) : ¬ s.Ended := by
  intro h; have := ha.ended h; rw [hr] at this; simp at this

theorem Ended.of_returned {s : State} {n} (h : s.pc = .returned n) : s.Ended := .inl ⟨n, h⟩
theorem Ended.of_rethrown {s : State} {t} (h : s.pc = .rethrown t) : s.Ended := .inr ⟨t, h⟩

theorem not_ended_of_pc {s : State} (h1 : ∀ n, s.pc ≠ .returned n) (h2 : ∀ n, s.pc ≠ .rethrown n) :
    ¬ s.Ended := by
  rintro (⟨n, h⟩ | ⟨n, h⟩)
  · exact h1 n h
  · exact h2 n h

theorem invC_step {j : Job} {s s' : State} (ha : InvA j s) (hc : InvC s) (h : Step j s s') :
    InvC s' := by
  cases h with
  | loopDrain hpc hs hp =>
    have hne : ¬ s.Ended := not_ended_of_pc (by simp [hpc]) (by simp [hpc])
    exact ⟨hc.thr, hc.eptr_ok, fun _ => hc.eptr_cov hne, by simp, by simp⟩
  | loopRead t suf hpc hs =>
    have hne : ¬ s.Ended := not_ended_of_pc (by simp [hpc]) (by simp [hpc])
    exact ⟨hc.thr, hc.eptr_ok, fun _ => hc.eptr_cov hne, by simp, by simp⟩
  | submit t suf hpc hs =>
    have hne : ¬ s.Ended := not_ended_of_pc (by simp [hpc]) (by simp [hpc])
    refine ⟨fun x hx => bad_snoc.mpr (.inl (hc.thr x hx)), ?_, ?_, ?_, ?_⟩
    · intro x hx; rw [bad_snoc]; exact .inl (hc.eptr_ok x hx)
    · intro _ x hx
      rw [bad_snoc] at hx
      rcases hx with hx | hx | hx
      · exact hc.eptr_cov hne x hx
      · cases hx
      · cases hx
    · intro n hn
      exact absurd (.inl ⟨n, hn⟩) (wrapPc_ne_ended suf)
    · intro n hn
      exact absurd (.inr ⟨n, hn⟩) (wrapPc_ne_ended suf)
  | readOk d ds hpc hr =>
    have hne : ¬ s.Ended := not_ended_of_pc (by simp [hpc]) (by simp [hpc])
    exact ⟨hc.thr, hc.eptr_ok, fun _ => hc.eptr_cov hne, by simp, by simp⟩
  | readPending d ds t suf hpc hr hs =>
    have hne : ¬ s.Ended := not_ended_of_pc (by simp [hpc]) (by simp [hpc])
    refine ⟨hc.thr, hc.eptr_ok, fun _ => hc.eptr_cov hne, ?_, ?_⟩
    · intro n hn
      exact absurd (.inl ⟨n, hn⟩) (wrapPc_ne_ended suf)
    · intro n hn
      exact absurd (.inr ⟨n, hn⟩) (wrapPc_ne_ended suf)
  | readFail d ds hpc hr =>
    have hne : ¬ s.Ended := not_ended_of_pc (by simp [hpc]) (by simp [hpc])
    exact ⟨hc.thr, hc.eptr_ok, fun _ => hc.eptr_cov hne, by simp, by simp⟩
  | wake hpc he =>
    have hne : ¬ s.Ended := not_ended_of_pc (by simp [hpc]) (by simp [hpc])
    exact ⟨hc.thr, hc.eptr_ok, fun _ => hc.eptr_cov hne, by simp, by simp⟩
  | rethrow t hpc hcc he =>
    refine ⟨hc.thr, by simp, ?_, by simp, ?_⟩
    · intro h; exact absurd (Ended.of_rethrown rfl) h
    · intro x hx
      simp at hx; subst hx
      exact hc.eptr_ok _ he
  | ret hpc hcc he =>
    have hne : ¬ s.Ended := not_ended_of_pc (by simp [hpc]) (by simp [hpc])
    have hrun : s.running = [] := by
      have := ha.ctr; rw [hcc] at this
      exact List.length_eq_zero_iff.mp (by omega)
    refine ⟨hc.thr, hc.eptr_ok, ?_, ?_, by simp⟩
    · intro h; exact absurd (Ended.of_returned rfl) h
    · intro n hn
      simp at hn
      refine ⟨hn.symm, fun x hx => ?_⟩
      rcases hc.eptr_cov hne x hx with h | h
      · exact h he
      · rw [hrun] at h; cases h
  | take t q hl hq =>
    have hne : ¬ s.Ended := queue_not_ended ha hq
    refine ⟨fun x hx => bad_snoc.mpr (.inl (hc.thr x (by simpa using hx))), ?_, ?_, ?_, ?_⟩
    · intro x hx; rw [bad_snoc]; exact .inl (hc.eptr_ok x hx)
    · intro _ x hx
      rw [bad_snoc] at hx
      rcases hx with hx | hx | hx
      · rcases hc.eptr_cov hne x hx with h | h
        · exact .inl h
        · exact .inr (List.mem_append_left _ h)
      · cases hx
      · cases hx
    · intro n hn; exact absurd (Ended.of_returned hn) hne
    · intro n hn; exact absurd (Ended.of_rethrown hn) hne
  | finSuccess l₁ t l₂ hr =>
    have hne := running_not_ended ha hr
    refine ⟨fun x hx => bad_snoc.mpr (.inl (hc.thr x (by rw [hr]; simp at hx ⊢; exact hx))), ?_, ?_, ?_, ?_⟩
    · intro x hx; rw [bad_snoc]; exact .inl (hc.eptr_ok x hx)
    · intro _ x hx
      rw [bad_snoc] at hx
      rcases hx with hx | hx | hx
      · rcases hc.eptr_cov hne x hx with h | h
        · exact .inl h
        · right; rw [hr] at h; simp at h ⊢
          rcases h with h | h
          · exact .inl h
          · exact .inr h
      · simp at hx
      · simp at hx
    · intro n hn; exact absurd (Ended.of_returned hn) hne
    · intro n hn; exact absurd (Ended.of_rethrown hn) hne
  | finFailure l₁ t l₂ hr =>
    have hne := running_not_ended ha hr
    refine ⟨fun x hx => bad_snoc.mpr (by
      by_cases hxt : x = t
      · subst hxt; simp
      · exact .inl (hc.thr x (by rw [hr]; simp [hxt] at hx ⊢; exact hx))), ?_, ?_, ?_, ?_⟩
    · intro x hx; rw [bad_snoc]; exact .inl (hc.eptr_ok x hx)
    · intro _ x hx
      rw [bad_snoc] at hx
      rcases hx with hx | hx | hx
      · rcases hc.eptr_cov hne x hx with h | h
        · exact .inl h
        · right; rw [hr] at h; simp at h ⊢
          rcases h with h | h
          · exact .inl h
          · exact .inr (.inr h)
      · simp at hx; subst hx; right; simp
      · simp at hx
    · intro n hn; exact absurd (Ended.of_returned hn) hne
    · intro n hn; exact absurd (Ended.of_rethrown hn) hne
  | finThrew l₁ t l₂ hr =>
    have hne := running_not_ended ha hr
    refine ⟨fun x hx => bad_snoc.mpr (by
      by_cases hxt : x = t
      · subst hxt; simp
      · exact .inl (hc.thr x (by rw [hr]; simp [hxt] at hx ⊢; exact hx))), ?_, ?_, ?_, ?_⟩
    · intro x hx; rw [bad_snoc]; exact .inl (hc.eptr_ok x hx)
    · intro _ x hx
      rw [bad_snoc] at hx
      rcases hx with hx | hx | hx
      · rcases hc.eptr_cov hne x hx with h | h
        · exact .inl h
        · right; rw [hr] at h; simp at h ⊢
          rcases h with h | h
          · exact .inl h
          · exact .inr (.inr h)
      · simp at hx
      · simp at hx; subst hx; right; simp
    · intro n hn; exact absurd (Ended.of_returned hn) hne
    · intro n hn; exact absurd (Ended.of_rethrown hn) hne
  | store l₁ t l₂ hr =>
    have hne := running_not_ended ha hr
    refine ⟨fun x hx => hc.thr x (by rw [hr]; simp at hx ⊢; rcases hx with h | h <;> simp [h]), ?_, ?_, ?_, ?_⟩
    · intro x hx
      rcases he : s.eptr with _ | y
      · -- the stored exception is that of `t`
        simp only [he, Option.some.injEq] at hx
        subst hx
        exact hc.thr t (by rw [hr]; simp)
      · simp only [he, Option.some.injEq] at hx
        subst hx
        exact hc.eptr_ok _ he
    · intro _ x hx
      left
      rcases he : s.eptr with _ | y <;> simp
    · intro n hn; exact absurd (Ended.of_returned hn) hne
    · intro n hn; exact absurd (Ended.of_rethrown hn) hne
  | setEvent l₁ t l₂ hr =>
    have hne := running_not_ended ha hr
    refine ⟨fun x hx => hc.thr x (by rw [hr]; simp at hx ⊢; exact hx), hc.eptr_ok, ?_, ?_, ?_⟩
    · intro _ x hx
      rcases hc.eptr_cov hne x hx with h | h
      · exact .inl h
      · right; rw [hr] at h; simp at h ⊢
        rcases h with h | h
        · exact .inl h
        · exact .inr h
    · intro n hn; exact absurd (Ended.of_returned hn) hne
    · intro n hn; exact absurd (Ended.of_rethrown hn) hne
  | unlock l₁ t l₂ hr =>
    have hne := running_not_ended ha hr
    refine ⟨fun x hx => hc.thr x (by rw [hr]; simp at hx ⊢; exact hx), hc.eptr_ok, ?_, ?_, ?_⟩
    · intro _ x hx
      rcases hc.eptr_cov hne x hx with h | h
      · exact .inl h
      · right; rw [hr] at h; simp at h ⊢
        rcases h with h | h
        · exact .inl h
        · exact .inr h
    · intro n hn; exact absurd (Ended.of_returned hn) hne
    · intro n hn; exact absurd (Ended.of_rethrown hn) hne

end Maike.TaskList

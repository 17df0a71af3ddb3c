import Verif.Build.Logged

/-!
# What the log tells about a build (C118)

The builds of `Build/Logged.lean`, whether they succeed or not.
-/

namespace Maike.Build

open Maike.Fs (Str)

variable {P : Type} [DecidableEq P]

theorem lexec_append {b : Build P} {l : Logger} (as bs : List (LAct P)) (s : LState P) : lexec b l (as ++ bs) s = (lexec b l as s).bind (lexec b l bs) := by
  induction as generalizing s with
  | nil => rfl
  | cons a as ih => simp only [List.cons_append, lexec, Option.bind_assoc]; congr; funext s; exact ih s

/-- What the log tells. -/
structure TellInv (l : Logger) (s : LState P) : Prop where
  failure : ∀ t, .finish t .failure ∈ s.base.sched.hist → ∃ m ∈ s.log, m.task = t ∧ m.failed = true
  told : ∀ m ∈ s.log, (s.base.decision m.task = some .run ∧ ∃ r : Report, m.failed = r.failed ∧ m.text = textExecuted l m.task r ∧ m.err = errExecuted l m.task r) ∨
    (s.base.decision m.task = some .skip ∧ m.failed = false ∧ m.text = textNotExecuted l m.task ∧ m.err = [])

omit [DecidableEq P] in
theorem tell_init (b : Build P) (l : Logger) (fs : FileSys P) (now : Nat) : TellInv l (linit b fs now) :=
  ⟨fun _ h => by simp [linit, init, TaskList.init] at h, fun _ h => by simp [linit] at h⟩

omit [DecidableEq P] in
theorem tell_append {l : Logger} {s : LState P} (hi : TellInv l s) {m : Message}
    (hm : (s.base.decision m.task = some .run ∧ ∃ r : Report, m.failed = r.failed ∧ m.text = textExecuted l m.task r ∧ m.err = errExecuted l m.task r) ∨
      (s.base.decision m.task = some .skip ∧ m.failed = false ∧ m.text = textNotExecuted l m.task ∧ m.err = [])) : TellInv l { s with log := s.log ++ [m] } := by
  refine ⟨fun t ht => ?_, fun m' hm' => ?_⟩
  · obtain ⟨m', h1, h2⟩ := hi.failure t ht
    exact ⟨m', List.mem_append_left _ h1, h2⟩
  · rcases List.mem_append.mp hm' with h | h
    · exact hi.told m' h
    · simp only [List.mem_singleton] at h
      subst h
      exact hm

/-- What is decided, printed and written stays as it is once a message has been printed. -/
theorem tell_step {b : Build P} {l : Logger} {a : LAct P} {s s' : LState P} (hi : TellInv l s) (h : lstep b l a s = some s') :
    TellInv l s' ∧ (∃ ms, s'.log = s.log ++ ms) ∧ ∀ m ∈ s.log, s'.base.decision m.task = s.base.decision m.task ∧ s'.base.written m.task = s.base.written m.task := by
  cases a with
  | base a =>
    simp only [lstep] at h
    split at h
    case isFalse => cases h
    case isTrue ho =>
    obtain ⟨x, hx, rfl⟩ := Option.map_eq_some_iff.mp h
    rcases step_cases hx with ⟨a', sched', rfl, hal, hs, rfl⟩ | ⟨k, t, rfl, hk, hdn, rfl⟩ | ⟨k, t, p, rfl, hk, _, _, rfl⟩ | ⟨p, rfl, _, rfl⟩ | ⟨rfl, rfl⟩
    · refine ⟨⟨fun t ht => ?_, hi.told⟩, ⟨[], by simp⟩, fun _ _ => ⟨rfl, rfl⟩⟩
      rcases step_finish hs ht with h' | ⟨k, rfl, hk⟩
      · exact hi.failure t h'
      · simpa only [inOrder, hk, List.any_eq_true, Bool.and_eq_true, decide_eq_true_eq] using ho
    · have key : ∀ m ∈ s.log, update s.base.decision t (some (decisionOf (shouldRun s.base.fs b.force (b.task t)))) m.task = s.base.decision m.task := by
        intro m hm
        refine update_ne _ _ fun e => ?_
        rcases hi.told m hm with h | h <;> rw [e, hdn] at h <;> cases h.1
      exact ⟨⟨hi.failure, fun m hm => by simpa only [key m hm] using hi.told m hm⟩, ⟨[], by simp⟩, fun m hm => ⟨key m hm, rfl⟩⟩
    · refine ⟨⟨hi.failure, hi.told⟩, ⟨[], by simp⟩, fun m hm => ⟨rfl, ?_⟩⟩
      simp only [inOrder, hk, List.all_eq_true, decide_eq_true_eq] at ho
      exact update_ne _ _ (ho m hm)
    all_goals exact ⟨⟨hi.failure, hi.told⟩, ⟨[], by simp⟩, fun _ _ => ⟨rfl, rfl⟩⟩
  | log k r =>
    simp only [lstep] at h
    split at h
    case h_2 => cases h
    case h_1 t hk =>
    split at h
    case isFalse => cases h
    case isTrue hn =>
    split at h
    · rename_i hd
      split at h
      · cases h
      · cases h
        exact ⟨tell_append hi (.inl ⟨hd, r, rfl, rfl, rfl⟩), ⟨_, rfl⟩, fun _ _ => ⟨rfl, rfl⟩⟩
    · rename_i hd
      cases h
      exact ⟨tell_append hi (.inr ⟨hd, rfl, rfl, rfl⟩), ⟨_, rfl⟩, fun _ _ => ⟨rfl, rfl⟩⟩
    · cases h

theorem tell_exec {b : Build P} {l : Logger} {as : List (LAct P)} {s s' : LState P} (hi : TellInv l s) (h : lexec b l as s = some s') :
    TellInv l s' ∧ (∃ ms, s'.log = s.log ++ ms) ∧ ∀ m ∈ s.log, s'.base.decision m.task = s.base.decision m.task ∧ s'.base.written m.task = s.base.written m.task := by
  induction as generalizing s with
  | nil => cases h; exact ⟨hi, ⟨[], by simp⟩, fun _ _ => ⟨rfl, rfl⟩⟩
  | cons a as ih =>
    obtain ⟨s₁, h1, h2⟩ := Option.bind_eq_some_iff.mp h
    obtain ⟨i1, ⟨ms, e1⟩, g1⟩ := tell_step hi h1
    obtain ⟨i2, ⟨ms', e2⟩, g2⟩ := ih i1 h2
    refine ⟨i2, ⟨ms ++ ms', by rw [e2, e1, List.append_assoc]⟩, fun m hm => ?_⟩
    have := g2 m (by rw [e1]; exact List.mem_append_left _ hm)
    exact ⟨this.1.trans (g1 m hm).1, this.2.trans (g1 m hm).2⟩

/-- Messages come from calls of `write`. -/
theorem tell_from {b : Build P} {l : Logger} {as : List (LAct P)} {s s' : LState P} (h : lexec b l as s = some s') {m : Message} (hm : m ∈ s'.log) :
    m ∈ s.log ∨ ∃ k r, .log k r ∈ as ∧ (m = ⟨m.task, r.failed, textExecuted l m.task r, errExecuted l m.task r⟩ ∨ m = ⟨m.task, false, textNotExecuted l m.task, []⟩) := by
  induction as generalizing s with
  | nil => cases h; exact .inl hm
  | cons a as ih =>
    obtain ⟨s₁, h1, h2⟩ := Option.bind_eq_some_iff.mp h
    rcases ih h2 with h' | ⟨k, r, hr, he⟩
    case inr => exact .inr ⟨k, r, List.mem_cons_of_mem _ hr, he⟩
    cases a with
    | base a =>
      simp only [lstep] at h1
      split at h1
      · obtain ⟨x, hx, rfl⟩ := Option.map_eq_some_iff.mp h1
        exact .inl h'
      · cases h1
    | log k r =>
      simp only [lstep] at h1
      repeat' split at h1
      all_goals first
        | cases h1; done
        | (cases h1
           rcases List.mem_append.mp h' with h' | h'
           · exact .inl h'
           · simp only [List.mem_singleton] at h'
             subst h'
             exact .inr ⟨k, r, List.mem_cons_self .., by simp⟩)

/-! ## C118 -/

/-- **C118.** At all times, whether the build will succeed or not: a task that has ended with success or with a failure has exactly one message, and the message says which. -/
theorem C118_result (b : Build P) (hb : b.job.Topological) (l : Logger) {fs : FileSys P} {now : Nat} {as : List (LAct P)} {s : LState P}
    (h : lexec b l as (linit b fs now) = some s) (t : Nat) :
    (.finish t .success ∈ s.base.sched.hist → ∃ m ∈ s.log, m.task = t ∧ m.failed = false ∧ ∀ m' ∈ s.log, m'.task = t → m' = m) ∧
    (.finish t .failure ∈ s.base.sched.hist → ∃ m ∈ s.log, m.task = t ∧ m.failed = true ∧ ∀ m' ∈ s.log, m'.task = t → m' = m) := by
  have hi := log_exec hb (log_init b l fs now) h
  have ht := (tell_exec (tell_init b l fs now) h).1
  constructor
  · intro hf
    obtain ⟨m, h1, h2, h3⟩ := hi.written t hf
    exact ⟨m, h1, h2, h3, fun m' hm' e => nodup_inj hi.nodup hm' h1 (e.trans h2.symm)⟩
  · intro hf
    obtain ⟨m, h1, h2, h3⟩ := ht.failure t hf
    exact ⟨m, h1, h2, h3, fun m' hm' e => nodup_inj hi.nodup hm' h1 (e.trans h2.symm)⟩

/-- **C118.** What a message says is true: a task is reported as executed if its recipe was to be executed, and as not executed if it was up to date; only tasks that were executed are reported
as failed, and no task with a failure ends with success, or the other way around. -/
theorem C118_true (b : Build P) (hb : b.job.Topological) (l : Logger) {fs : FileSys P} {now : Nat} {as : List (LAct P)} {s : LState P}
    (h : lexec b l as (linit b fs now) = some s) {m : Message} (hm : m ∈ s.log) :
    ((s.base.decision m.task = some .run ∧ ∃ r : Report, m.failed = r.failed ∧ m.text = textExecuted l m.task r ∧ m.err = errExecuted l m.task r) ∨
      (s.base.decision m.task = some .skip ∧ m.failed = false ∧ m.text = textNotExecuted l m.task ∧ m.err = [])) ∧
    (m.failed = true → .finish m.task .success ∉ s.base.sched.hist) ∧ (m.failed = false → .finish m.task .failure ∉ s.base.sched.hist) := by
  have hr := C118_result b hb l h m.task
  refine ⟨(tell_exec (tell_init b l fs now) h).1.told m hm, fun hf hn => ?_, fun hf hn => ?_⟩
  · obtain ⟨m', _, _, h3, h4⟩ := hr.1 hn
    rw [← h4 m hm rfl, hf] at h3
    cases h3
  · obtain ⟨m', _, _, h3, h4⟩ := hr.2 hn
    rw [← h4 m hm rfl, hf] at h3
    cases h3

/-- **C118.** Messages stay, and come when the work is done: later on, the log is the same with more messages at the end, and a task with a message has written nothing more. -/
theorem C118_final (b : Build P) (l : Logger) {fs : FileSys P} {now : Nat} {as as' : List (LAct P)} {s s' : LState P}
    (h : lexec b l as (linit b fs now) = some s) (h' : lexec b l as' s = some s') :
    (∃ ms, s'.log = s.log ++ ms) ∧ (∃ more, s'.output = s.output ++ more) ∧
      ∀ m ∈ s.log, s'.base.decision m.task = s.base.decision m.task ∧ s'.base.written m.task = s.base.written m.task := by
  obtain ⟨_, ⟨ms, e⟩, g⟩ := tell_exec (tell_exec (tell_init b l fs now) h).1 h'
  exact ⟨⟨ms, e⟩, ⟨ms.flatMap Message.text, by simp [LState.output, e]⟩, g⟩

theorem puts_append {h : Str} (hz : '\x00' ∉ h) (x : Str) : Log.puts (h ++ x) = h ++ Log.puts x := by
  unfold Log.puts
  rw [List.takeWhile_append_of_pos]
  intro c hc
  simp only [bne_iff_ne, ne_eq]
  exact fun e => hz (e ▸ hc)

/-- The line about a task is printed whatever the command has printed. -/
theorem textExecuted_line {l : Logger} (hlevel : l.level ≠ .errors) {t : Nat} (hp : l.Plain t) (r : Report) :
    ∃ pre post, textExecuted l t r = pre ++ infoExecuted l t r ++ ['\n'] ++ post := by
  have h0 := print_zero fun w hw => (hp.words w hw).2
  have hinfo : '\x00' ∉ infoExecuted l t r := by
    simp only [infoExecuted, List.mem_append, not_or]
    refine ⟨⟨⟨⟨⟨(number_plain _).2, ?_⟩, hp.path.2⟩, by decide⟩, (number_plain _).2⟩, by decide⟩ |> fun h => ⟨h, (number_plain _).2⟩
    split <;> decide
  obtain ⟨ls, hls, _⟩ := Log.C55_lines_unique r.out
  cases hl : l.level with
  | errors => exact absurd hl hlevel
  | sourceFileInfo =>
    refine ⟨[' '], Log.puts (ls.map (Log.mark ++ ·)).flatten, ?_⟩
    rw [textExecuted, Log.texts, Log.C55_lines _ _ ls hls, hl]
    rw [if_pos (by simp [Log.header]), puts_append]
    · simp [Log.header]
    · simp [Log.header, hinfo]
  | compilationCommand =>
    refine ⟨Text.Shell.print (l.command t) ++ [' ', '#', ' '], Log.puts (ls.map (Log.mark ++ ·)).flatten, ?_⟩
    rw [textExecuted, Log.texts, Log.C55_lines _ _ ls hls, hl]
    rw [if_pos (by simp [Log.header]; omega), puts_append]
    · simp [Log.header]
    · simp [Log.header, hinfo, h0]

/-- **C118.** A failure is seen in what is printed: if a task has failed then there is a line with its number, a cross, and the path of the file, unless only errors are to be logged. -/
theorem C118_seen (b : Build P) (hb : b.job.Topological) (l : Logger) (hlevel : l.level ≠ .errors) {fs : FileSys P} {now : Nat} {as : List (LAct P)} {s : LState P}
    (h : lexec b l as (linit b fs now) = some s) {t : Nat} (hf : .finish t .failure ∈ s.base.sched.hist) (hp : l.Plain t) :
    ∃ pre post : Str, ∃ r : Report, r.failed = true ∧
      s.output = pre ++ (number t ++ " | ✗ | ".toList ++ l.path t ++ " | ".toList ++ number r.started ++ " | ".toList ++ number r.completed ++ ['\n']) ++ post := by
  obtain ⟨m, h1, rfl, h3, _⟩ := (C118_result b hb l h t).2 hf
  rcases (C118_true b hb l h h1).1 with ⟨_, r, e1, e2, _⟩ | ⟨_, e1, _⟩
  · have hr : r.failed = true := e1 ▸ h3
    obtain ⟨l₁, l₂, e⟩ := List.append_of_mem h1
    obtain ⟨pre, post, et⟩ := textExecuted_line hlevel hp r
    refine ⟨l₁.flatMap Message.text ++ pre, post ++ l₂.flatMap Message.text, r, hr, ?_⟩
    simp only [LState.output, e, List.flatMap_append, List.flatMap_cons, e2, et]
    simp [infoExecuted, hr]
  · rw [h3] at e1
    cases e1

/-- **C118.** Nothing is made up: what is printed about a task that has failed comes from a report of a command that has failed. -/
theorem C118_report (b : Build P) (hb : b.job.Topological) (l : Logger) {fs : FileSys P} {now : Nat} {as : List (LAct P)} {s : LState P}
    (h : lexec b l as (linit b fs now) = some s) {t : Nat} (hf : .finish t .failure ∈ s.base.sched.hist) :
    ∃ k r, .log k r ∈ as ∧ r.failed = true ∧ ⟨t, true, textExecuted l t r, errExecuted l t r⟩ ∈ s.log := by
  obtain ⟨m, h1, rfl, h3, _⟩ := (C118_result b hb l h t).2 hf
  rcases tell_from h h1 with h' | ⟨k, r, hr, e | e⟩
  · cases h'
  · have hr' : r.failed = true := by rw [e] at h3; exact h3
    refine ⟨k, r, hr, hr', ?_⟩
    rw [hr'] at e
    rw [← e]
    exact h1
  · rw [e] at h3
    cases h3

theorem takeWhile_more {α : Type} (p : α → Bool) (xs ys : List α) : ∃ zs, (xs ++ ys).takeWhile p = xs.takeWhile p ++ zs := by
  induction xs with
  | nil => exact ⟨_, rfl⟩
  | cons x xs ih =>
    obtain ⟨zs, hz⟩ := ih
    simp only [List.cons_append, List.takeWhile_cons]
    split
    · exact ⟨zs, by rw [hz]; rfl⟩
    · exact ⟨[], rfl⟩

/-- **C118.** With every log level, what a command that has failed has printed on `stderr` (up to the first zero) is printed on `stderr`. -/
theorem C118_errors (b : Build P) (hb : b.job.Topological) (l : Logger) {fs : FileSys P} {now : Nat} {as : List (LAct P)} {s : LState P}
    (h : lexec b l as (linit b fs now) = some s) {t : Nat} (hf : .finish t .failure ∈ s.base.sched.hist) :
    ∃ k r, .log k r ∈ as ∧ r.failed = true ∧ ∃ pre post : Str, s.errors = pre ++ r.err.takeWhile (· != '\x00') ++ post := by
  obtain ⟨k, r, hr, hr', hm⟩ := C118_report b hb l h hf
  obtain ⟨l₁, l₂, e⟩ := List.append_of_mem hm
  refine ⟨k, r, hr, hr', l₁.flatMap Message.err, ?_⟩
  have key : ∃ x, errExecuted l t r = r.err.takeWhile (· != '\x00') ++ x := by
    simp only [errExecuted, Log.texts, Log.puts]
    split
    · exact takeWhile_more _ _ _
    · exact ⟨[], by simp⟩
  obtain ⟨x, hx⟩ := key
  exact ⟨x ++ l₂.flatMap Message.err, by simp [LState.errors, e, hx]⟩

/-- Tasks that wait for each other, in one or several steps. -/
inductive WaitsFor (b : Build P) : Nat → Nat → Prop
  | dep {t u} : u ∈ b.job.deps t → u ∈ b.job.tasks → WaitsFor b t u
  | trans {t u v} : WaitsFor b t u → WaitsFor b u v → WaitsFor b t v

/-- **C118.** Below a cross, nothing is reported: if there is a message about a task then there are messages about all tasks that it waits for, and they report successes. So there is no message about a task
that waits for one that has failed, nor will there be one. -/
theorem C118_waiting (b : Build P) (hb : b.job.Topological) (l : Logger) {fs : FileSys P} {now : Nat} {as : List (LAct P)} {s : LState P}
    (h : lexec b l as (linit b fs now) = some s) :
    (∀ m ∈ s.log, ∀ u, WaitsFor b m.task u → ∃ m' ∈ s.log, m'.task = u ∧ m'.failed = false) ∧
    (∀ u, .finish u .failure ∈ s.base.sched.hist → ∀ t, WaitsFor b t u → ∀ as' s', lexec b l as' s = some s' → ∀ m ∈ s'.log, m.task ≠ t) := by
  have first : ∀ (as : List (LAct P)) (s : LState P), lexec b l as (linit b fs now) = some s → ∀ t u, WaitsFor b t u → ∀ m ∈ s.log, m.task = t → ∃ m' ∈ s.log, m'.task = u ∧ m'.failed = false := by
    intro as s h t u hw
    have hi := log_exec hb (log_init b l fs now) h
    induction hw with
    | dep hd ht =>
      intro m hm e
      subst e
      obtain ⟨h₁, h₂, hh⟩ := List.append_of_mem (hi.started m hm).1
      exact hi.written _ (by rw [hh]; exact List.mem_append_left _ (TaskList.C15_dependencies_first hb hi.sched hh _ hd ht))
    | trans _ _ ih1 ih2 =>
      intro m hm e
      obtain ⟨m', h1, h2, _⟩ := ih1 m hm e
      exact ih2 m' h1 h2
  refine ⟨fun m hm u hw => first as s h _ u hw m hm rfl, fun u hu t hw as' s' h' m hm e => ?_⟩
  have h'' : lexec b l (as ++ as') (linit b fs now) = some s' := by rw [lexec_append, h]; exact h'
  obtain ⟨m', h1, h2, h3⟩ := first _ s' h'' t u hw m hm e
  obtain ⟨m₀, g1, g2, g3, _⟩ := (C118_result b hb l h u).2 hu
  obtain ⟨ms, hms⟩ := (C118_final b l h h').1
  have : m' = m₀ := nodup_inj (log_exec hb (log_init b l fs now) h'').nodup h1 (by rw [hms]; exact List.mem_append_left _ g1) (h2.trans g2.symm)
  rw [this, g3] at h3
  cases h3

/-! ### The log does not restrict builds -/

/-- Messages are about tasks that have ended. -/
def Ended (b : Build P) (s : LState P) : Prop := TaskList.Reachable b.job s.base.sched ∧ ∀ m ∈ s.log, ∃ o, .finish m.task o ∈ s.base.sched.hist

theorem ended_hist {b : Build P} {a : Act P} {s : LState P} (hi : Ended b s) {x : State P} (h : step b a s.base = some x) :
    TaskList.Reachable b.job x.sched ∧ ∀ e ∈ s.base.sched.hist, e ∈ x.sched.hist := by
  rcases step_cases h with ⟨a', sched', rfl, hal, hs, rfl⟩ | ⟨k, t, rfl, hk, hdn, rfl⟩ | ⟨k, t, p, rfl, hk, _, _, rfl⟩ | ⟨p, rfl, _, rfl⟩ | ⟨rfl, rfl⟩
  · refine ⟨hi.1.step hs, fun e he => ?_⟩
    obtain ⟨e', h'⟩ := TaskList.step_hist hs
    rw [h']
    exact List.mem_append_left _ he
  all_goals exact ⟨hi.1, fun _ he => he⟩

theorem free_step {b : Build P} (hb : b.job.Topological) (l : Logger) {a : Act P} {s : LState P} (hi : Ended b s) {x : State P} (h : step b a s.base = some x) :
    ∃ las s', lexec b l las s = some s' ∧ s'.base = x ∧ Ended b s' := by
  have hg := ended_hist hi h
  have fresh : ∀ k t : Nat, s.base.sched.running[k]? = some (t, TaskList.Stage.body) → ∀ m ∈ s.log, m.task ≠ t := by
    intro k t hk m hm e
    obtain ⟨o, ho⟩ := hi.2 m hm
    exact (TaskList.body_facts hb hi.1 hk).2.1 o (e ▸ ho)
  by_cases hord : inOrder s a = true
  · exact ⟨[.base a], { s with base := x }, by simp [lexec, lstep, hord, h], rfl, hg.1, fun m hm => (hi.2 m hm).imp fun o ho => hg.2 _ ho⟩
  · rcases step_cases h with ⟨a', sched', rfl, hal, hs, rfl⟩ | ⟨k, t, rfl, hk, hdn, rfl⟩ | ⟨k, t, p, rfl, hk, _, _, rfl⟩ | ⟨p, rfl, _, rfl⟩ | ⟨rfl, rfl⟩
    · cases a' with
      | main => exact absurd rfl hord
      | take => exact absurd rfl hord
      | work k o =>
        cases hk : s.base.sched.running[k]? with
        | none => simp [inOrder, hk] at hord
        | some y =>
          obtain ⟨t, ph⟩ := y
          cases ph with
          | body =>
            have hf : .finish t o ∈ sched'.hist := by
              simp only [TaskList.step, TaskList.stepWork, hk] at hs
              cases o <;> (simp only [Option.some.injEq] at hs; subst hs; simp)
            have hnew : (s.log.all fun m => decide (m.task ≠ t)) = true := by
              simp only [List.all_eq_true, decide_eq_true_eq]
              exact fresh k t hk
            have main : ∀ m : Message, m.task = t → lstep b l (.log k ⟨decide (o = .failure), [], [], 0, 0⟩) s = some { s with log := s.log ++ [m] } →
                inOrder { s with log := s.log ++ [m] } (.sched (.work k o)) = true →
                ∃ las s', lexec b l las s = some s' ∧ s'.base = { s.base with sched := sched' } ∧ Ended b s' := by
              intro m hm hl ho
              refine ⟨[.log k ⟨decide (o = .failure), [], [], 0, 0⟩, .base (.sched (.work k o))], ⟨{ s.base with sched := sched' }, s.log ++ [m]⟩, ?_, rfl, hg.1, ?_⟩
              · simp only [lexec, hl, Option.bind_some]
                simp only [lstep, ho, h, if_true, Option.map_some, Option.bind_some]
              · intro m' hm'
                rcases List.mem_append.mp hm' with h' | h'
                · exact (hi.2 m' h').imp fun o ho => hg.2 _ ho
                · simp only [List.mem_singleton] at h'
                  subst h'
                  exact ⟨o, hm ▸ hf⟩
            simp only [allowed, hk, mayEnd] at hal
            cases o with
            | threw => simp [inOrder, hk] at hord
            | success =>
              split at hal
              · cases hal
              · rename_i hd
                exact main _ rfl (by simp only [lstep, hk, hnew, hd, if_true]; simp [Report.dry]; rfl) (by simp [inOrder, hk])
              · rename_i hd
                exact main _ rfl (by simp only [lstep, hk, hnew, hd, if_true]; rfl) (by simp [inOrder, hk])
              · simp at hal
            | failure =>
              split at hal
              · cases hal
              · rename_i hd
                have hdry : b.dryrun = false := by
                  cases hb : b.dryrun
                  · rfl
                  · simp [hb] at hal
                exact main _ rfl (by simp only [lstep, hk, hnew, hd, if_true, hdry]; simp; rfl) (by simp [inOrder, hk])
              · simp at hal
              · simp at hal
          | throwing => simp [inOrder, hk] at hord
          | exiting => simp [inOrder, hk] at hord
          | unlocking => simp [inOrder, hk] at hord
    · exact absurd rfl hord
    · simp only [inOrder, hk, List.all_eq_true, decide_eq_true_eq] at hord
      exact absurd (fresh k t hk) hord
    · exact absurd rfl hord
    · exact absurd rfl hord

/-- **C118.** The log does not restrict what a build can do: every build is that of a build with a log. So what the theorems above say about builds with a log, they say about all builds. -/
theorem C118_all (b : Build P) (hb : b.job.Topological) (l : Logger) {fs : FileSys P} {now : Nat} {as : List (Act P)} {x : State P} (h : exec b as (init b fs now) = some x) :
    ∃ las s, lexec b l las (linit b fs now) = some s ∧ s.base = x := by
  have key : ∀ (as : List (Act P)) (s : LState P), Ended b s → exec b as s.base = some x → ∃ las s', lexec b l las s = some s' ∧ s'.base = x := by
    intro as
    induction as with
    | nil => intro s _ h; exact ⟨[], s, rfl, Option.some.inj h⟩
    | cons a as ih =>
      intro s hi h
      simp only [exec] at h
      split at h
      case h_2 => cases h
      case h_1 y hy =>
      obtain ⟨las, s₁, h1, rfl, hi'⟩ := free_step hb l hi hy
      obtain ⟨las', s₂, h2, e⟩ := ih s₁ hi' h
      refine ⟨las ++ las', s₂, ?_, e⟩
      rw [lexec_append, h1]
      exact h2
  exact key as (linit b fs now) ⟨⟨[], rfl⟩, fun _ h => by simp [linit] at h⟩ h

end Maike.Build

/-! ## Example -/

namespace Maike.Build.LogTellsExample

/-- Target 20, which is made from 10, is up to date. Target 21, which is made from 11, does not exist. -/
def two : Build Nat where
  job := ⟨[0, 1], fun _ => [], 2⟩
  task t := { src := 10 + t, targets := [20 + t], deps := [] }
  force := false
  kind _ := false
  fine := false

def disk : FileSys Nat := fun p => if p = 10 ∨ p = 11 then some ⟨1, false⟩ else if p = 20 then some ⟨2, false⟩ else none

def logger : Logger := ⟨.sourceFileInfo, fun _ => ⟨"cc".toList, []⟩, fun t => if t = 0 then "a.c".toList else "b.c".toList⟩

/-- The second task fails, and writes its target nevertheless. -/
def actions : List (LAct Nat) :=
  List.replicate 4 (.base (.sched .main)) ++ [.base (.sched .take), .base (.sched .take), .base (.check 0), .base (.check 1), .base (.write 1 21), .log 1 ⟨true, "no".toList, "bad".toList, 5, 6⟩,
    .log 0 ⟨false, [], [], 5, 6⟩, .base (.sched (.work 1 .failure)), .base (.sched (.work 0 .success))]

def after (as : List (LAct Nat)) : Option (LState Nat) := lexec two logger as (linit two disk 5)

theorem topological : two.job.Topological := ⟨by decide, fun l₁ t l₂ _ u hu => by simp [two] at hu⟩

theorem plain (t : Nat) : logger.Plain t := by
  refine ⟨fun w hw => ?_, ?_⟩
  · simp only [logger, List.mem_singleton] at hw
    subst hw
    exact ⟨⟨by decide, by decide⟩, by decide⟩
  · simp only [logger]
    split <;> decide

/-- The hypotheses of `C118_seen` are met, and this is what is printed. -/
theorem C118_example : ∃ s, after actions = some s ∧ .finish 1 .failure ∈ s.base.sched.hist ∧ .finish 0 .success ∈ s.base.sched.hist ∧
    s.output = " 1 | ✗ | b.c | 5 | 6\n ... no 0 | ✓ | a.c | - | - \n".toList ∧
    ∃ pre post : List Char, ∃ r : Report, r.failed = true ∧
      s.output = pre ++ (number 1 ++ " | ✗ | ".toList ++ logger.path 1 ++ " | ".toList ++ number r.started ++ " | ".toList ++ number r.completed ++ ['\n']) ++ post := by
  have h : (after actions).any (fun s => decide (.finish 1 .failure ∈ s.base.sched.hist) && decide (.finish 0 .success ∈ s.base.sched.hist) &&
      decide (s.output = " 1 | ✗ | b.c | 5 | 6\n ... no 0 | ✓ | a.c | - | - \n".toList)) = true := by decide +kernel
  cases hs : after actions with
  | none => rw [hs] at h; cases h
  | some s =>
    rw [hs] at h
    simp only [Option.any_some, Bool.and_eq_true, decide_eq_true_eq] at h
    exact ⟨s, rfl, h.1.1, h.1.2, h.2, C118_seen two topological logger (by simp [logger]) hs h.1.1 (plain 1)⟩

/-- A failure can not be recorded before it has been printed, and a success can not be recorded after a failure has been printed. -/
theorem C118_example_order : after (actions.filter fun a => match a with | .log 1 _ => false | _ => true) = none ∧
    after (actions.take 10 ++ [.base (.sched (.work 1 .success))]) = none ∧ after (actions.take 10 ++ [.base (.write 1 21)]) = none := by
  refine ⟨?_, ?_, ?_⟩ <;> exact Option.isNone_iff_eq_none.mp (by decide +kernel)

/-- If only errors are to be logged, the line that `C118_seen` speaks about is missing; what the command has printed is not. -/
theorem C118_level_needed : (lexec two { logger with level := .errors } actions (linit two disk 5)).map (fun s => (s.output, s.errors)) = some (" ... no\n".toList, "bad\n".toList) := by
  decide +kernel

theorem of_any {α : Type} {o : Option α} {p : α → Bool} (h : o.any p = true) : ∃ x, o = some x ∧ p x = true := by
  cases o with
  | none => cases h
  | some x => exact ⟨x, rfl, h⟩

/-- The second task waits for the first one. -/
def chain : Build Nat := { two with job := ⟨[0, 1], fun t => if t = 1 then [0] else [], 2⟩, force := true }

theorem chain_topological : chain.job.Topological := by
  refine ⟨by decide, fun l₁ t l₂ e u hu => ?_⟩
  have e : [0, 1] = l₁ ++ t :: l₂ := e
  simp only [chain] at hu
  split at hu
  · rename_i ht
    subst ht
    have hu : u = 0 := by simpa using hu
    subst hu
    cases l₁ with
    | nil => cases e
    | cons a l₁ =>
      injection e with e1 _
      intro _
      simp [← e1]
  · cases hu

/-- The first task fails: there will never be a message about the second one. -/
theorem C118_waiting_example : ∃ s, lexec chain logger (List.replicate 2 (.base (.sched .main)) ++ [.base (.sched .take), .base (.check 0), .log 0 ⟨true, [], [], 5, 6⟩, .base (.sched (.work 0 .failure))])
      (linit chain disk 5) = some s ∧ s.log.length = 1 ∧ ∀ as' s', lexec chain logger as' s = some s' → ∀ m ∈ s'.log, m.task ≠ 1 := by
  have h : (lexec chain logger (List.replicate 2 (.base (.sched .main)) ++ [.base (.sched .take), .base (.check 0), .log 0 ⟨true, [], [], 5, 6⟩, .base (.sched (.work 0 .failure))])
      (linit chain disk 5)).any (fun s => decide (s.log.length = 1) && decide (.finish 0 .failure ∈ s.base.sched.hist)) = true := by decide +kernel
  obtain ⟨s, hs, hr⟩ := of_any h
  simp only [Bool.and_eq_true, decide_eq_true_eq] at hr
  exact ⟨s, hs, hr.1, (C118_waiting chain chain_topological logger hs).2 0 hr.2 1 (.dep (by decide) (by decide))⟩

end Maike.Build.LogTellsExample

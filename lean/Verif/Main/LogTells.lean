import Verif.Build.LogTells
import Verif.Main.Bootstrap
import Verif.Main.Messages

/-!
# What the log tells about projects (C118)
-/

namespace Maike.Main

open Fs Tree Paths
open Maike.Kvs (Json)
open Maike.Kvs.JsonText (Reals)
open Maike.Build (LAct LState Report lexec linit number)

variable {m : Machine} {kind : Path → Bool} {d : Disk} {now : Nat} {args : List Str} {s : Settings}

/-- **C118.** For projects loaded from files: if a task fails then it belongs to a source file with targets that has been found in the project, and there is a line with a cross and the path of
this file in what maike has printed. If this is the failure that ends the program, then the program complains about the same file. -/
theorem C118_project (hw : (s.job.world d).Ok) {files : List (Path × FileInfo)} {tree : Db.SourceTree Path} (hl : Loads s.job d files tree) (hok : (Db.taskListAll tree.graph).1 = .ok)
    {f : Reals} (hf : f.Ok) {info : Json} {format : Text.LogFormat} (hn : PlainNames files tree info format) {level : Build.Log.Level} (hlevel : level ≠ .errors)
    {as : List (LAct Path)} {x : LState Path} (h : lexec (s.build tree kind) (theLogger f level files tree info format) as (linit (s.build tree kind) d.fs now) = some x)
    {t : Nat} (hfail : .finish t .failure ∈ x.base.sched.hist) :
    ∃ a i, Scanned s.job d a i ∧ i.targets ≠ [] ∧
      (∃ pre post : Str, ∃ r : Report, r.failed = true ∧
        x.output = pre ++ (number t ++ " | ✗ | ".toList ++ a.normal.str ++ " | ".toList ++ number r.started ++ " | ".toList ++ number r.completed ++ ['\n']) ++ post) ∧
      (plan m d args = .run s → s.what = .all → x.base.sched.pc = .rethrown t → Complains m kind d now args (a.normal.str ++ ": Compilation failed".toList)) := by
  obtain ⟨_, files3, _, _, _, hg, s3⟩ := Build.load_ok (loadable_of_ok hw hl).sorted hl.2
  obtain ⟨g1, g2⟩ := (Db.C21_all_tasks files3 s3 hg).2 hok
  obtain ⟨as', hx⟩ := Build.lexec_exec h
  have ht := finished_task (g2 s.job.workers) (exec_reachable hx) hfail
  obtain ⟨p, si, hp, hne⟩ := (g1 t).mp ht
  rcases Build.record_origin (loadable_of_ok hw hl) hl.2 hp with ⟨i0, hi0, htg, _⟩ | ⟨h', _⟩
  · obtain ⟨⟨k, i⟩, hy, e⟩ := List.mem_map.mp hi0
    obtain ⟨a, hs, rfl⟩ := (mem_files_of_ok hw hl _ _).mp hy
    injection e with e1 e2
    subst e1 e2
    refine ⟨a, i, hs, fun e => hne (by rw [htg]; simp [FileInfo.toSrcInfo, e]), ?_, fun hplan hall hpc => ?_⟩
    · obtain ⟨pre, post, r, hr, e⟩ := Build.C118_seen (s.build tree kind) (g2 s.job.workers) _ hlevel h hfail (plain_logger hf hn ht)
      refine ⟨pre, post, r, hr, ?_⟩
      rw [e]
      simp [theLogger, hp]
    · have hsrc : ((s.build tree kind).task t).src = a.normal := by
        show (Build.makeTask tree.graph t).src = _
        simp [Build.makeTask, hp]
      have := Complains.failed hplan hl hall hok hx hpc hfail
      rwa [hsrc] at this
  · exact absurd h' hne

end Maike.Main

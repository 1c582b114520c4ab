import Verif.Model.Security
/- Where a path leads, and what the functions which can be called remotely do. -/
namespace Verif.Spec.Security
open Verif.Quoting

/-- From the directory `cur` follow the components. There are no symbolic links here. -/
def walk (cur : List Bytes) : List Bytes → List Bytes
  | [] => cur
  | c :: cs => walk (if c = [] ∨ c = [46] then cur else if c = [46, 46] then cur.dropLast else cur ++ [c]) cs

/-- The directory or file that the path `p` stands for, for a process in the directory `cwd`. -/
def resolve (cwd : List Bytes) (p : Bytes) : List Bytes := walk (if p.head? = some 47 then [] else cwd) (Verif.Glob.split p)

/-- `p` is `r` or in `r`. -/
def Within (cwd : List Bytes) (r p : Bytes) : Prop := resolve cwd r <+: resolve cwd p

/-- A name without slash, and which is not empty. -/
def Plain (c : Bytes) : Prop := c ≠ [] ∧ 47 ∉ c

/-- Functions that take something out of a repository's history, or overwrite a directory. -/
def destroying : List String :=
  ["_repo_shadow.RepoShadow.regress", "_repo_shadow.RepoShadow.force_regress", "_repo_shadow.RepoShadow.remove_increments_older_than",
   "_repo_shadow.RepoShadow.remove_file", "_dir_shadow.WriteDirShadow.apply"]

/-- Functions that add a backup to a repository. -/
def updating : List String :=
  ["_repo_shadow.RepoShadow.apply", "_repo_shadow.RepoShadow.touch_current_mirror", "_repo_shadow.RepoShadow.remove_current_mirror",
   "_repo_shadow.RepoShadow.set_config", "_repo_shadow.RepoShadow.close_statistics", "VirtualFile.writetoid"]

/-- Functions that give away the content of files, or what files there are. -/
def revealing : List String :=
  ["_repo_shadow.RepoShadow.get_diffs", "_repo_shadow.RepoShadow.list_files_at_time", "_repo_shadow.RepoShadow.list_files_changed_since",
   "_repo_shadow.RepoShadow.init_and_get_loop", "_dir_shadow.ReadDirShadow.get_diffs", "_dir_shadow.ReadDirShadow.get_select",
   "_dir_shadow.ReadDirShadow.compare_full"]

/-- The modules and classes of rdiff-backup that may be called. -/
def modules : List String :=
  ["RedirectedRun", "VirtualFile", "specifics", "generics", "log", "robust", "SetConnections", "_repo_shadow", "_dir_shadow", "rpath", "sstats"]

/-- What is before the first dot; connection.py 120-139 `_eval` looks it up among the builtin functions of Python first (`open`, `eval`, `__import__`, ...). -/
def moduleOf (fn : String) : List Char := fn.toList.takeWhile (· ≠ '.')

/-- What each end calls on the other one to set up the connection and the settings: SetConnections.py 367-541, generics.py 165, 176, actions/__init__.py 639,
fs_abilities.py 981-983, 1172-1173, 1252, rpath.py 739. -/
def connecting : List Verif.Security.Request :=
  [⟨"specifics.get", [.str "version"]⟩, ⟨"specifics.get", [.str "api_version"]⟩, ⟨"specifics.set_api_version", [.other]⟩,
   ⟨"SetConnections.init_connection_remote", [.other]⟩, ⟨"robust.install_signal_handlers", []⟩,
   ⟨"generics.set_local", [.str "current_time", .other]⟩, ⟨"specifics.set", [.str "eas_conn", .other]⟩]

/-- What `rdiff-backup backup` calls for its destination: actions/backup.py 79-153, locations/repository.py. -/
def backupRepo : List String :=
  ["_repo_shadow.RepoShadow.init", "_repo_shadow.RepoShadow.check", "_repo_shadow.RepoShadow.setup", "_repo_shadow.RepoShadow.get_fs_abilities",
   "_repo_shadow.RepoShadow.get_config", "_repo_shadow.RepoShadow.set_config", "_repo_shadow.RepoShadow.setup_finish", "_repo_shadow.RepoShadow.needs_regress",
   "_repo_shadow.RepoShadow.get_mirror_time", "_repo_shadow.RepoShadow.touch_current_mirror", "_repo_shadow.RepoShadow.get_sigs",
   "_repo_shadow.RepoShadow.apply", "_repo_shadow.RepoShadow.remove_current_mirror", "_repo_shadow.RepoShadow.close_statistics",
   "_repo_shadow.RepoShadow.exit", "log.Log.open_logfile_local", "log.Log.log_to_file", "log.Log.close_logfile_local", "log.ErrorLog.open_logfile_local",
   "log.ErrorLog.log_to_file", "log.ErrorLog.close_logfile_local"]

/-- What `rdiff-backup backup` calls for its source: actions/backup.py 79-146, locations/directory.py 33-78. -/
def backupDir : List String :=
  ["_dir_shadow.ReadDirShadow.init", "_dir_shadow.ReadDirShadow.check", "_dir_shadow.ReadDirShadow.setup", "_dir_shadow.ReadDirShadow.get_fs_abilities",
   "_dir_shadow.ReadDirShadow.set_select", "_dir_shadow.ReadDirShadow.get_select", "_dir_shadow.ReadDirShadow.get_diffs"]

/-- What `rdiff-backup restore` calls for the repository: actions/restore.py 86-233, locations/repository.py. -/
def restoreRepo : List String :=
  ["_repo_shadow.RepoShadow.init", "_repo_shadow.RepoShadow.check", "_repo_shadow.RepoShadow.setup", "_repo_shadow.RepoShadow.get_fs_abilities",
   "_repo_shadow.RepoShadow.get_config", "_repo_shadow.RepoShadow.setup_finish", "_repo_shadow.RepoShadow.needs_regress",
   "_repo_shadow.RepoShadow.get_parsed_time", "_repo_shadow.RepoShadow.set_select", "_repo_shadow.RepoShadow.init_loop",
   "_repo_shadow.RepoShadow.get_diffs", "_repo_shadow.RepoShadow.finish_loop", "_repo_shadow.RepoShadow.exit"]

/-- What `rdiff-backup restore` calls for the target: actions/restore.py 86-232, locations/directory.py 100-151. -/
def restoreDir : List String :=
  ["_dir_shadow.WriteDirShadow.init", "_dir_shadow.WriteDirShadow.check", "_dir_shadow.WriteDirShadow.setup",
   "_dir_shadow.WriteDirShadow.get_fs_abilities", "_dir_shadow.WriteDirShadow.set_select", "_dir_shadow.WriteDirShadow.get_sigs_select",
   "_dir_shadow.WriteDirShadow.apply"]

end Verif.Spec.Security

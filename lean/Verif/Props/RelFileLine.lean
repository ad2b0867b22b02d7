import Verif.Model.RelFileLine
import Verif.Props.WorkDir
/-!
# C163: the caller's file relative to the Go path
-/

set_option linter.unusedSectionVars false

namespace Verif.WorkDir
open Verif.Spec Verif.Path Verif.Backtrace

theorem relateFileLine_eq (R : RelFn) (env : Str) (line : Lines) (me : Frame) (rest : List Frame) :
    relateFileLine R env line (me :: rest) = (relateGoPath R env me.file.toList, line me.call) := rfl

theorem rooted_goPath {env : Str} (h : ';' ∉ env) (hne : env ≠ []) : rooted (goPath env) = rooted env := by
  unfold goPath filePath
  rw [takeWhile_all env h, rooted_clean, rooted_append hne]

/-- **C163** The line is that of the call, in the caller, whatever the variable GOPATH. -/
theorem C163_line (R : RelFn) (env : Str) (line : Lines) (me : Frame) (rest : List Frame) :
    (relateFileLine R env line (me :: rest)).2 = line me.call := rfl

/-- **C163** (partial: if the variable GOPATH names one directory by an absolute path and the file of the caller is known by an absolute path;
see `C163_file_false` and `C163_env_false` for the rest) The name is relative, and from the directory "src" of the Go path it leads to the file
of the caller. -/
theorem C163_leads_partial (R : RelFn) (env : Str) (line : Lines) (me : Frame) (rest : List Frame) (he : rooted env = true) (hs : ';' ∉ env)
    (hf : rooted me.file.toList = true) :
    rooted (relateFileLine R env line (me :: rest)).1 = false ∧
    ∀ cwd, resolve (resolve cwd env ++ ["src".toList]) (relateFileLine R env line (me :: rest)).1 = resolve cwd me.file.toList := by
  have hne : env ≠ [] := by intro e; rw [e] at he; simp [rooted] at he
  have h := (C84_relate_partial R (filePath me.file.toList) (goPath env)
    (.inl ⟨by rw [filePath, rooted_clean, hf], by rw [rooted_goPath hs hne, he]⟩)).2
  refine ⟨h.1, fun cwd => ?_⟩
  have h2 := h.2 cwd
  rw [(C90_gopath_partial env hs hne cwd).1, filePath, resolve_clean] at h2
  exact h2

/-- **C163** Callers in different files get different names (for absolute paths, as before). -/
theorem C163_apart (R : RelFn) (env : Str) (line line' : Lines) (me me' : Frame) (rest rest' : List Frame) (he : rooted env = true)
    (hs : ';' ∉ env) (hf : rooted me.file.toList = true) (hf' : rooted me'.file.toList = true)
    (h : (relateFileLine R env line (me :: rest)).1 = (relateFileLine R env line' (me' :: rest')).1) (cwd : List Str) :
    resolve cwd me.file.toList = resolve cwd me'.file.toList := by
  rw [← (C163_leads_partial R env line me rest he hs hf).2 cwd, h]
  exact (C163_leads_partial R env line' me' rest' he hs hf').2 cwd

/-- **C163** In general it is false: all files that the compiler knows by relative paths have the name ".", if the Go path is absolute; it is
also if the variable is empty. -/
theorem C163_file_false (R : RelFn) (env : Str) (line : Lines) (me : Frame) (rest : List Frame) (he : rooted env = true ∨ env = []) (hs : ';' ∉ env)
    (hf : rooted me.file.toList = false) : relateFileLine R env line (me :: rest) = (".".toList, line me.call) := by
  have hg : rooted (goPath env) = true := by
    rcases he with he | rfl
    · have hne : env ≠ [] := by intro e; rw [e] at he; simp [rooted] at he
      rw [rooted_goPath hs hne, he]
    · decide
  have h := (C84_false R (filePath me.file.toList) (goPath env) (by rw [filePath, rooted_clean, hf, hg]; simp)).2.1
  rw [relateFileLine_eq]
  exact congrArg (·, line me.call) h

/-- **C163** And if the variable GOPATH is a relative path, all files known by absolute paths have the name ".". -/
theorem C163_env_false (R : RelFn) (env : Str) (line : Lines) (me : Frame) (rest : List Frame) (he : rooted env = false) (hne : env ≠ [])
    (hs : ';' ∉ env) (hf : rooted me.file.toList = true) : relateFileLine R env line (me :: rest) = (".".toList, line me.call) := by
  have h := (C84_false R (filePath me.file.toList) (goPath env) (by rw [filePath, rooted_clean, hf, rooted_goPath hs hne, he]; simp)).2.1
  rw [relateFileLine_eq]
  exact congrArg (·, line me.call) h

/-- C163_leads_partial: a function of a package in the Go path. -/
example := C163_leads_partial someRel "/go".toList id ⟨"p.f", "/go/src/p/f.go", 7, 8⟩ [] (by decide) (by decide) (by decide)
/-- C163_apart -/
example := C163_apart someRel "/go".toList id id ⟨"p.f", "/go/src/p/f.go", 7, 8⟩ ⟨"p.g", "/go/src/p/../p/f.go", 9, 10⟩ [] [] (by decide) (by decide)
  (by decide) (by decide)
/-- C163_file_false -/
example := C163_file_false someRel [] id ⟨"main.main", "_testmain.go", 7, 8⟩ [] (.inr rfl) (by decide) (by decide)
/-- C163_env_false -/
example := C163_env_false someRel "go".toList id ⟨"p.f", "/go/src/p/f.go", 7, 8⟩ [] (by decide) (by decide) (by decide) (by decide)

end Verif.WorkDir

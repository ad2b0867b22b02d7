import Verif.Model.WorkDir
import Verif.Props.Path
/-!
# The working directory: C116
-/

set_option linter.unusedSectionVars false

namespace Verif.Spec

/-- The path of a call. -/
def callPath : WorkDir.Call → Str
  | .chdir p => p
  | .osChdir p => p

/-- Where a history of calls leads from the directory `d`, given how they ended: a call that ended in an error leads
nowhere, any other one leads where its path leads from the directory reached so far. -/
def wander (d : List Str) : List (WorkDir.Call × WorkDir.Out) → List Str
  | [] => d
  | (_, .err) :: h => wander d h
  | (c, _) :: h => wander (resolve d (callPath c)) h

/-- The directory in which the package was last told the truth: the one reached by the last `Chdir` of the package that
returned nil (`w` if there is none). -/
def lastTold (d w : List Str) : List (WorkDir.Call × WorkDir.Out) → List Str
  | [] => w
  | (_, .err) :: h => lastTold d w h
  | (.chdir p, .nil) :: h => lastTold (resolve d p) (resolve d p) h
  | (c, _) :: h => lastTold (resolve d (callPath c)) w h

end Verif.Spec

namespace Verif.WorkDir
open Verif.Spec Verif.Path

/-- What one call does, in one table. -/
theorem call_spec (O : Os) (st : Proc) (c : Call) :
    ((call O st c).2 = .err ∧ (call O st c).1.cwd = st.cwd ∧ (call O st c).1.gWorkPath = st.gWorkPath) ∨
    ((call O st c).2 = .panic ∧ (∃ p, c = .chdir p) ∧ (call O st c).1.cwd = resolve st.cwd (callPath c) ∧
      (call O st c).1.gWorkPath = st.gWorkPath) ∨
    ((call O st c).2 = .nil ∧ (∃ p, c = .osChdir p) ∧ (call O st c).1.cwd = resolve st.cwd (callPath c) ∧
      (call O st c).1.gWorkPath = st.gWorkPath) ∨
    ((call O st c).2 = .nil ∧ (∃ p, c = .chdir p) ∧ (call O st c).1.cwd = resolve st.cwd (callPath c) ∧
      O.getwd (st.time + 1) (resolve st.cwd (callPath c)) = some (call O st c).1.gWorkPath) := by
  cases c with
  | osChdir p =>
    simp only [call, osChdir, callPath]
    split <;> simp
  | chdir p =>
    simp only [call, chdir, callPath, workPath, filePath, resolve_clean]
    split
    · cases e : O.getwd (st.time + 1) (resolve st.cwd p) <;> simp
    · simp

theorem calls_spec (O : Os) (cs : List Call) : ∀ (st : Proc) (w : List Str),
    rooted st.gWorkPath = true → (∀ cwd, resolve cwd st.gWorkPath = w) →
    let r := calls O st cs
    let h := cs.zip r.2
    r.1.cwd = wander st.cwd h ∧ rooted r.1.gWorkPath = true ∧
      ∀ cwd, resolve cwd r.1.gWorkPath = lastTold st.cwd w h := by
  induction cs with
  | nil => intro st w h1 h2; exact ⟨rfl, h1, h2⟩
  | cons c cs ih =>
    intro st w h1 h2
    simp only [calls, List.zip_cons_cons]
    rcases call_spec O st c with ⟨o, a, b⟩ | ⟨o, ⟨p, rfl⟩, a, b⟩ | ⟨o, ⟨p, rfl⟩, a, b⟩ | ⟨o, ⟨p, rfl⟩, a, b⟩
    · have := ih (call O st c).1 w (by rw [b]; exact h1) (by rw [b]; exact h2)
      rw [o]; rw [a] at this
      simpa only [wander, lastTold] using this
    · have := ih (call O st (.chdir p)).1 w (by rw [b]; exact h1) (by rw [b]; exact h2)
      rw [o]; rw [a] at this
      simpa only [wander, lastTold] using this
    · have := ih (call O st (.osChdir p)).1 w (by rw [b]; exact h1) (by rw [b]; exact h2)
      rw [o]; rw [a] at this
      simpa only [wander, lastTold] using this
    · have g := O.getwd_law _ _ _ b
      have := ih (call O st (.chdir p)).1 (resolve st.cwd p) g.1 g.2
      rw [o]; rw [a] at this
      simpa only [wander, lastTold, callPath] using this

theorem start_spec (O : Os) (d : List Str) (st : Proc) (h : start O d = .ok st) :
    st.cwd = d ∧ rooted st.gWorkPath = true ∧ ∀ cwd, resolve cwd st.gWorkPath = d := by
  unfold start workPath at h
  cases e : O.getwd 0 d with
  | none => simp [e] at h
  | some s =>
    simp only [e, Res.ok.injEq] at h
    subst h
    exact ⟨rfl, O.getwd_law _ _ _ e⟩

/-- **C116** After every history of calls of `Chdir` none of which panicked, the path `WorkPath` returns is absolute and is
that of the working directory of the process, which is the one the successful calls lead to one after the other. -/
theorem C116_workpath (O : Os) (d : List Str) (st : Proc) (ps : List Str) (h : start O d = .ok st)
    (hp : Out.panic ∉ (calls O st (ps.map .chdir)).2) :
    let r := calls O st (ps.map .chdir)
    rooted (getWorkPath r.1) = true ∧ (∀ cwd, resolve cwd (getWorkPath r.1) = r.1.cwd) ∧
      r.1.cwd = wander d ((ps.map .chdir).zip r.2) := by
  obtain ⟨s1, s2, s3⟩ := start_spec O d st h
  obtain ⟨a, b, c⟩ := calls_spec O (ps.map .chdir) st d s2 s3
  rw [s1] at a c
  refine ⟨b, fun cwd => ?_, a⟩
  rw [getWorkPath, c cwd, a]
  have key : ∀ (ps : List Str) (os : List Out) (d w : List Str), .panic ∉ os → d = w →
      lastTold d w ((ps.map Call.chdir).zip os) = wander d ((ps.map Call.chdir).zip os) := by
    intro ps
    induction ps with
    | nil => intro os d w _ e; simp [lastTold, wander, e]
    | cons p ps ih =>
      intro os d w hn e
      cases os with
      | nil => simp [lastTold, wander, e]
      | cons o os =>
        have hn' : Out.panic ∉ os := fun hm => hn (by simp [hm])
        cases o with
        | nil => simpa only [List.map_cons, List.zip_cons_cons, lastTold, wander, callPath] using ih os _ _ hn' rfl
        | err => simpa only [List.map_cons, List.zip_cons_cons, lastTold, wander] using ih os _ _ hn' e
        | panic => simp at hn
  exact key ps _ d d hp rfl

/-- **C116** After every history whatever, with other code calling `os.Chdir` and with panics recovered, the working
directory is where the calls that did not fail lead, and `WorkPath` is the path of the directory the last call of `Chdir`
that returned nil led to. -/
theorem C116_history (O : Os) (d : List Str) (st : Proc) (cs : List Call) (h : start O d = .ok st) :
    let r := calls O st cs
    r.1.cwd = wander d (cs.zip r.2) ∧ rooted (getWorkPath r.1) = true ∧
      ∀ cwd, resolve cwd (getWorkPath r.1) = lastTold d d (cs.zip r.2) := by
  obtain ⟨s1, s2, s3⟩ := start_spec O d st h
  have := calls_spec O cs st d s2 s3
  rw [s1] at this
  exact this

/-- **C116** `Chdir` fails exactly when the directory its path leads to cannot be entered, and then nothing changes; it
panics exactly when the directory was entered and the system cannot tell its path, and then the process has moved while
`WorkPath` has not; otherwise it returns nil. -/
theorem C116_outcomes (O : Os) (st : Proc) (p : Str) :
    let t := st.time + 1
    let d := resolve st.cwd p
    let r := chdir O st p
    (r.2 = .err ↔ O.enter t d = false) ∧ (r.2 = .panic ↔ O.enter t d = true ∧ O.getwd t d = none) ∧
    (r.2 = .nil ↔ O.enter t d = true ∧ O.getwd t d ≠ none) ∧
    (r.2 = .err → r.1.cwd = st.cwd ∧ getWorkPath r.1 = getWorkPath st) ∧
    (r.2 = .panic → r.1.cwd = d ∧ getWorkPath r.1 = getWorkPath st) ∧
    (r.2 = .nil → r.1.cwd = d ∧ O.getwd t d = some (getWorkPath r.1)) := by
  simp only [chdir, workPath, filePath, resolve_clean, getWorkPath]
  cases e : O.enter (st.time + 1) (resolve st.cwd p) with
  | false => simp
  | true => cases g : O.getwd (st.time + 1) (resolve st.cwd p) <;> simp

/-- **C116** While `WorkPath` is true, a relative path joined to it leads from everywhere where the relative path leads in
the working directory: it can be kept across later changes of the directory. -/
theorem C116_absolute (st : Proc) (p : Str) (hw : rooted (getWorkPath st) = true)
    (ht : ∀ cwd, resolve cwd (getWorkPath st) = st.cwd) (hp : rooted p = false) :
    rooted (joins [getWorkPath st, p]) = true ∧ ∀ cwd, resolve cwd (joins [getWorkPath st, p]) = resolve st.cwd p := by
  have hne : getWorkPath st ≠ [] := by intro e; rw [e] at hw; simp [rooted] at hw
  refine ⟨by rw [rooted_joins hne, hw], fun cwd => ?_⟩
  rw [C83_relative _ _ _ hne (by simpa using hp), ht]
  rfl

/-- **C116** (partial: for absolute paths only) While `WorkPath` is true, the path relative to it leads from the working
directory where the path itself leads. -/
theorem C116_relate_partial (R : RelFn) (st : Proc) (p : Str) (hw : rooted (getWorkPath st) = true)
    (ht : ∀ cwd, resolve cwd (getWorkPath st) = st.cwd) (hp : rooted p = true) :
    rooted (relateWorkPath R st p) = false ∧ resolve st.cwd (relateWorkPath R st p) = resolve st.cwd p := by
  have h := (C84_relate_partial R (filePath p) st.gWorkPath (.inl ⟨by rw [filePath, rooted_clean, hp], hw⟩)).2
  refine ⟨h.1, ?_⟩
  have := h.2 st.cwd
  rw [show resolve st.cwd st.gWorkPath = st.cwd from ht st.cwd, filePath, resolve_clean] at this
  exact this

/-- **C116** For relative paths it is false: the result is always ".", the working directory itself. -/
theorem C116_relate_false (R : RelFn) (st : Proc) (p : Str) (hw : rooted (getWorkPath st) = true)
    (hp : rooted p = false) :
    relateWorkPath R st p = ".".toList ∧ resolve st.cwd (relateWorkPath R st p) = st.cwd := by
  have h := (C84_false R (filePath p) st.gWorkPath (by
    rw [filePath, rooted_clean, hp, show rooted st.gWorkPath = true from hw]; simp)).2.1
  have e : relateWorkPath R st p = ".".toList := h
  exact ⟨e, by rw [e]; rfl⟩

/-- The system used in the examples: every directory made of names can be entered except "x", and its path is always
known except in "lost". -/
def someOs : Os where
  enter _ d := d.getLast? ≠ some "x".toList
  getwd _ d := if (∀ c ∈ d, c ≠ [] ∧ c ≠ ".".toList ∧ c ≠ "..".toList ∧ '/' ∉ c) ∧ d.getLast? ≠ some "lost".toList then
    some ('/' :: joinSlash d) else none
  getwd_law n d s h := by
    split_ifs at h with hd
    obtain rfl : '/' :: joinSlash d = s := by simpa using h
    refine ⟨rfl, fun cwd => ?_⟩
    have e : '/' :: joinSlash d = render true (0, d.reverse) := by simp [render, outOf]
    have hn : ∀ x ∈ d.reverse, Name x := fun x hx => hd.1 x (List.mem_reverse.1 hx)
    rw [resolve_form, e, form_render true (0, d.reverse) hn (by simp), rooted_render true _ hn]
    simp

example :
    let st := (⟨["a".toList], "/a".toList, 0⟩ : Proc)
    start someOs ["a".toList] = .ok st ∧
    calls someOs st (["b".toList, "x".toList, "../../c".toList].map .chdir) =
      (⟨["c".toList], "/c".toList, 3⟩, [.nil, .err, .nil]) := by decide

/-- A directory changed behind the back of the package, and a panic recovered, leave `WorkPath` behind. -/
example :
    let st := (⟨["a".toList], "/a".toList, 0⟩ : Proc)
    calls someOs st [.osChdir "b".toList] = (⟨["a".toList, "b".toList], "/a".toList, 1⟩, [.nil]) ∧
    calls someOs st [.chdir "lost".toList, .chdir "../d".toList] =
      (⟨["a".toList, "d".toList], "/a/d".toList, 2⟩, [.panic, .nil]) := by decide

example : resolve ["a".toList] (relateWorkPath someRel ⟨["a".toList], "/a".toList, 0⟩ "/b/c".toList) = ["b".toList, "c".toList] ∧
    relateWorkPath someRel ⟨["a".toList], "/a".toList, 0⟩ "b".toList = ".".toList := by
  refine ⟨?_, (C116_relate_false someRel _ _ rfl rfl).1⟩
  refine (C116_relate_partial someRel ⟨["a".toList], "/a".toList, 0⟩ "/b/c".toList rfl ?_ rfl).2.trans (by decide)
  intro cwd
  rw [resolve_of_rooted cwd (s := getWorkPath ⟨["a".toList], "/a".toList, 0⟩) rfl]
  decide

example := C116_workpath someOs ["a".toList] ⟨["a".toList], "/a".toList, 0⟩ ["b".toList, "x".toList, "../../c".toList]
  (by decide) (by decide)
example := C116_history someOs ["a".toList] ⟨["a".toList], "/a".toList, 0⟩ [.osChdir "b".toList, .chdir "lost".toList] (by decide)
example := C116_absolute ⟨["a".toList], "/a".toList, 0⟩ "b/c".toList rfl
  (fun cwd => by rw [resolve_of_rooted cwd (s := getWorkPath ⟨["a".toList], "/a".toList, 0⟩) rfl]; decide) rfl

end Verif.WorkDir

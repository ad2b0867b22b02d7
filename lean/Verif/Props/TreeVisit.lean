import Verif.Props.TreeHistory
import Mathlib.Tactic.ByContra
/-!
# Visitors over trees in memory: C118
-/

set_option linter.unusedSectionVars false

namespace Verif.Spec
open Verif.TreeHeap
variable {α : Type} [Inhabited α]

/-- A history of visitor calls, in a memory that does not change. -/
def visit (h : Heap α) (fuel : Nat) : Visitor → List CurOp → Option (Res (List (CurOut α)))
  | _, [] => some (.ok [])
  | v, .next :: ops =>
    match next h v with
    | .panic => some .panic
    | .ok (v', ok) => (visit h fuel v' ops).map fun r => r.bind fun os => .ok (.moved ok :: os)
  | v, .prev :: ops =>
    match prev h fuel v with
    | none => none
    | some .panic => some .panic
    | some (.ok (v', ok)) => (visit h fuel v' ops).map fun r => r.bind fun os => .ok (.moved ok :: os)
  | v, .get :: ops =>
    match get h v with
    | .panic => some .panic
    | .ok x => (visit h fuel v ops).map fun r => r.bind fun os => .ok (.val x :: os)

end Verif.Spec

namespace Verif.TreeHeap
open Verif.Spec Verif.Tree
variable {α : Type}

/-- The visitor of pointers for a visitor of trees. -/
def toH (v : Tree.Visitor Ptr) : Visitor :=
  ⟨match v.node with
    | some n => n.val
    | none => 0, v.stk.map fun x => (x.1.val, x.2)⟩

/-- The trees of the visitor are in memory, and not too large. -/
def InMem (h : Heap α) (B : Nat) (v : Tree.Visitor Ptr) : Prop :=
  (∀ n, v.node = some n → Rep h n ∧ sizeOf n ≤ B) ∧ ∀ x ∈ v.stk, Rep h x.1 ∧ sizeOf x.1 ≤ B

theorem Rep.ne_zero {h : Heap α} {t : Tree Ptr} (r : Rep h t) : t.val ≠ 0 := by
  obtain ⟨n, hd, _⟩ := r.deref
  exact (deref_ok.1 hd).1

theorem child_size {t c : Tree Ptr} (hc : c ∈ t.children) : sizeOf c < sizeOf t := by
  cases t with
  | node p cs =>
    have := List.sizeOf_lt_of_mem hc
    have e : sizeOf (Tree.node p cs) = 1 + sizeOf p + sizeOf cs := by simp
    simp only [Tree.children] at this
    omega

theorem nextBrother_eq (l : List Ptr) (hl : ∀ x ∈ l, x ≠ 0) (i : Int) : nextBrother i l = l.head?.map fun c => (c, i) := by
  cases l with
  | nil => rfl
  | cons c cs => simp [nextBrother, hl c (by simp)]

theorem nextLoop_sim {h : Heap α} {B : Nat} (stk : List (Tree Ptr × Int)) : (∀ x ∈ stk, Rep h x.1 ∧ sizeOf x.1 ≤ B) →
    ∀ v', Tree.nextLoop stk = .ok v' → nextLoop h (stk.map fun x => (x.1.val, x.2)) = .ok (toH v') ∧ InMem h B v' := by
  induction stk with
  | nil =>
    intro _ v' e
    simp only [Tree.nextLoop, Res.pure_eq, Res.ok.injEq] at e
    subst e
    exact ⟨rfl, by simp [InMem]⟩
  | cons x rest ih =>
    obtain ⟨p, b⟩ := x
    intro hs v' e
    obtain ⟨rp, hb⟩ : Rep h p ∧ sizeOf p ≤ B := hs (p, b) (by simp)
    have hrest : ∀ x ∈ rest, Rep h x.1 ∧ sizeOf x.1 ≤ B := fun x hx => hs x (by simp [hx])
    unfold Tree.nextLoop at e
    simp only [List.map_cons]
    unfold nextLoop
    by_cases h0 : b < 0
    · simp only [if_pos h0, Res.pure_eq, Res.ok.injEq] at e ⊢
      subst e
      rw [if_neg rp.ne_zero]
      exact ⟨rfl, by simpa [InMem] using ⟨⟨rp, hb⟩, fun a c hx => hrest (a, c) hx⟩⟩
    · simp only [if_neg h0] at e ⊢
      obtain ⟨n, hd, hc, hr⟩ := rp.deref
      have hnz : ∀ x ∈ n.children.drop (b.toNat + 1), x ≠ 0 := by
        intro x hx
        have := List.mem_of_mem_drop hx
        rw [hc] at this
        obtain ⟨d, hdm, rfl⟩ := List.mem_map.1 this
        exact (hr d hdm).ne_zero
      simp only [hd, Res.bind_ok, nextBrother_eq _ hnz]
      by_cases hlt : b < (p.children.length : Int) - 1
      · simp only [if_pos hlt] at e
        have hlt' : b.toNat + 1 < p.children.length := by omega
        have hm := mustChild_eq p (b.toNat + 1) hlt'
        rw [show ((b.toNat + 1 : Nat) : Int) = b + 1 by omega] at hm
        simp only [hm, Res.bind_ok, Res.pure_eq, Res.ok.injEq] at e
        subst e
        have hh : (n.children.drop (b.toNat + 1)).head? = some (p.children[b.toNat + 1]).val := by
          rw [hc, List.head?_drop, List.getElem?_map, List.getElem?_eq_getElem hlt']; rfl
        simp only [hh, Option.map_some]
        refine ⟨rfl, ⟨fun m hm => ?_, fun x hx => ?_⟩⟩
        · simp only [Option.some.injEq] at hm
          subst hm
          have hmem := List.getElem_mem hlt'
          exact ⟨hr _ hmem, by have := child_size hmem; omega⟩
        · rcases List.mem_cons.1 hx with rfl | hx
          · exact ⟨rp, hb⟩
          · exact hrest x hx
      · simp only [if_neg hlt] at e
        have hh : (n.children.drop (b.toNat + 1)).head? = none := by
          rw [hc, List.head?_drop, List.getElem?_eq_none]; simp; omega
        simp only [hh, Option.map_none]
        exact ih hrest v' e

theorem next_sim {h : Heap α} {B : Nat} (v : Tree.Visitor Ptr) (hv : InMem h B v) (v' : Tree.Visitor Ptr) (ok : Bool)
    (e : Tree.next v = .ok (v', ok)) : next h (toH v) = .ok (toH v', ok) ∧ InMem h B v' := by
  have key : ∀ w, Tree.nextState v = .ok w → InMem h B w → ((toH w).node ≠ 0 ↔ w.node.isSome = true) := by
    intro w _ hw
    cases e : w.node with
    | none => simp [toH, e]
    | some n => simp [toH, e, (hw.1 n e).1.ne_zero]
  unfold Tree.next at e
  cases es : Tree.nextState v with
  | panic => simp [es] at e
  | ok w =>
    simp only [es, Res.bind_ok, Res.pure_eq, Res.ok.injEq, Prod.mk.injEq] at e
    obtain ⟨rfl, rfl⟩ := e
    have main : nextState h (toH v) = .ok (toH w) ∧ InMem h B w := by
      unfold nextState
      unfold Tree.nextState at es
      cases hn : v.node with
      | none =>
        simp only [hn] at es
        have e0 : (toH v).node = 0 := by simp [toH, hn]
        rw [if_neg (by simp [e0])]
        exact nextLoop_sim v.stk hv.2 w es
      | some n =>
        obtain ⟨rn, nb⟩ := hv.1 n hn
        have e0 : (toH v).node = n.val := by simp [toH, hn]
        obtain ⟨m, hd, hc, hr⟩ := rn.deref
        rw [e0, if_pos rn.ne_zero, hd]
        simp only [hn] at es
        simp only [Res.bind_ok]
        cases hcs : n.children with
        | nil =>
          simp only [hcs, List.length_nil, gt_iff_lt, Nat.lt_irrefl, if_false] at es
          rw [hc, hcs]
          exact nextLoop_sim v.stk hv.2 w es
        | cons c cs =>
          have hm := mustChild_eq n 0 (by rw [hcs]; simp)
          rw [show ((0 : Nat) : Int) = 0 from rfl] at hm
          rw [if_pos (by rw [hcs]; simp)] at es
          simp only [hm, Res.bind_ok, Res.pure_eq, Res.ok.injEq] at es
          subst es
          have hcm : c ∈ n.children := by rw [hcs]; simp
          have h0 : n.children[0]'(by rw [hcs]; simp) = c := by simp [hcs]
          have hmc : m.children = c.val :: cs.map Tree.val := by rw [hc, hcs]; rfl
          simp only [hmc]
          rw [if_pos (hr c hcm).ne_zero]
          refine ⟨by simp [toH, h0], ⟨fun k hk => ?_, fun x hx => ?_⟩⟩
          · simp only [h0, Option.some.injEq] at hk
            subst hk
            exact ⟨hr c hcm, by have := child_size hcm; omega⟩
          · rcases List.mem_cons.1 hx with rfl | hx
            · exact ⟨rn, nb⟩
            · exact hv.2 x hx
    refine ⟨?_, main.2⟩
    unfold next
    rw [main.1]
    simp only [Res.bind_ok, Res.pure_eq, Res.ok.injEq, Prod.mk.injEq, true_and]
    have := key w es main.2
    cases hs : w.node.isSome <;> simp_all

theorem topRight_sim {h : Heap α} {B : Nat} {n : Tree Ptr} (r : Rep h n) : ∀ (fuel : Nat) (stk : List (Tree Ptr × Int)),
    sizeOf n ≤ fuel → sizeOf n ≤ B → (∀ x ∈ stk, Rep h x.1 ∧ sizeOf x.1 ≤ B) →
    topRight h fuel (stk.map fun x => (x.1.val, x.2)) n.val =
      some (.ok (toH ⟨some (Tree.topRight stk n).2, (Tree.topRight stk n).1⟩)) ∧
    InMem h B ⟨some (Tree.topRight stk n).2, (Tree.topRight stk n).1⟩ := by
  induction r with
  | node p m cs hd hc hr ih =>
    intro fuel stk hf hB hs
    cases fuel with
    | zero => simp at hf
    | succ fuel =>
      unfold topRight
      simp only [Tree.val, hd]
      by_cases hl : cs.length > 0
      · have hg : m.children.getLast? = some (cs[cs.length - 1]'(by omega)).val := by
          rw [hc, List.getLast?_eq_getElem?]
          simp [List.getElem?_map]
          exact ⟨_, List.getElem?_eq_getElem (by omega), rfl⟩
        have hmem : cs[cs.length - 1]'(by omega) ∈ cs := List.getElem_mem _
        have hsz := List.sizeOf_lt_of_mem hmem
        have e : sizeOf (Tree.node p cs) = 1 + sizeOf p + sizeOf cs := by simp
        rw [Tree.topRight, dif_pos (show (Tree.node p cs).children.length > 0 from hl)]
        rw [hg]
        simp only
        have := ih _ hmem fuel ((Tree.node p cs, (cs.length : Int) - 1) :: stk) (by omega) (by omega) (by
          intro x hx
          rcases List.mem_cons.1 hx with rfl | hx
          · exact ⟨.node p m cs hd hc hr, hB⟩
          · exact hs x hx)
        rw [show m.children.length = cs.length by rw [hc]; simp]
        exact this
      · have hcs : cs = [] := List.length_eq_zero_iff.mp (by omega)
        rw [Tree.topRight, dif_neg (show ¬ (Tree.node p cs).children.length > 0 from hl)]
        subst hcs
        rw [hc]
        refine ⟨rfl, ⟨fun k hk => ?_, hs⟩⟩
        simp only [Option.some.injEq] at hk
        subst hk
        exact ⟨.node p m [] hd hc hr, hB⟩

theorem prev_sim {h : Heap α} {B fuel : Nat} (hB : B ≤ fuel) (v : Tree.Visitor Ptr) (hv : InMem h B v)
    (v' : Tree.Visitor Ptr) (ok : Bool) (e : Tree.prev v = .ok (v', ok)) :
    prev h fuel (toH v) = some (.ok (toH v', ok)) ∧ InMem h B v' := by
  obtain ⟨vn, stk⟩ := v
  have tr : ∀ (stk : List (Tree Ptr × Int)) (p : Tree Ptr), Rep h p → sizeOf p ≤ B → (∀ x ∈ stk, Rep h x.1 ∧ sizeOf x.1 ≤ B) →
      topRightOf h fuel (stk.map fun x => (x.1.val, x.2)) p.val =
        some (.ok (toH ⟨some (Tree.topRight stk p).2, (Tree.topRight stk p).1⟩)) ∧
      InMem h B ⟨some (Tree.topRight stk p).2, (Tree.topRight stk p).1⟩ := by
    intro stk p rp hp hs
    unfold topRightOf
    rw [if_neg rp.ne_zero]
    exact topRight_sim rp fuel stk (by omega) hp hs
  cases vn with
  | none =>
    cases stk with
    | nil =>
      simp only [Tree.prev, Res.pure_eq, Res.ok.injEq, Prod.mk.injEq] at e
      obtain ⟨rfl, rfl⟩ := e
      exact ⟨rfl, hv⟩
    | cons x rest =>
      obtain ⟨p, b⟩ := x
      obtain ⟨rp, hp⟩ : Rep h p ∧ sizeOf p ≤ B := hv.2 (p, b) (by simp)
      have hrest : ∀ x ∈ rest, Rep h x.1 ∧ sizeOf x.1 ≤ B := fun x hx => hv.2 x (by simp [hx])
      obtain ⟨t1, t2⟩ := tr rest p rp hp hrest
      simp only [Tree.prev, Res.pure_eq, Res.ok.injEq, Prod.mk.injEq] at e
      obtain ⟨rfl, rfl⟩ := e
      refine ⟨?_, t2⟩
      simp only [prev, toH, List.map_cons, if_true, t1]
      simp [Res.bind, (t2.1 _ rfl).1.ne_zero]
  | some n =>
    obtain ⟨rn, hn⟩ := hv.1 n rfl
    have h0 : (toH ⟨some n, stk⟩).node ≠ 0 := rn.ne_zero
    cases stk with
    | nil =>
      simp only [Tree.prev, Res.pure_eq, Res.ok.injEq, Prod.mk.injEq] at e
      obtain ⟨rfl, rfl⟩ := e
      refine ⟨?_, by simp [InMem]⟩
      unfold prev
      rw [if_neg h0]
      rfl
    | cons x rest =>
      obtain ⟨p, b⟩ := x
      obtain ⟨rp, hp⟩ : Rep h p ∧ sizeOf p ≤ B := hv.2 (p, b) (by simp)
      have hrest : ∀ x ∈ rest, Rep h x.1 ∧ sizeOf x.1 ≤ B := fun x hx => hv.2 x (by simp [hx])
      unfold prev
      rw [if_neg h0]
      simp only [toH, List.map_cons]
      simp only [Tree.prev] at e
      by_cases hb : b > 0
      · simp only [if_pos hb] at e ⊢
        obtain ⟨m, hd, hc, hr⟩ := rp.deref
        cases hm : mustChild p (b - 1) with
        | panic => simp [hm] at e
        | ok c =>
          simp only [hm, Res.bind_ok, Res.pure_eq, Res.ok.injEq, Prod.mk.injEq] at e
          obtain ⟨rfl, rfl⟩ := e
          have hlt : (b - 1).toNat < p.children.length := by
            by_contra hge
            have hcond : ¬ ((b - 1) ≥ 0 ∧ (b - 1) < ((SortSlice.len (⟨p.children⟩ : SortSlice.SortSlice (Tree Ptr)) : Nat) : Int)) := by
              unfold SortSlice.len; simp only; omega
            have hg : SortSlice.get (⟨p.children⟩ : SortSlice.SortSlice (Tree Ptr)) (b - 1) = .ok (default, false) := by
              unfold SortSlice.get
              rw [if_neg hcond]; rfl
            simp [mustChild, SortSlice.mustGet, hg] at hm
          have hm2 := mustChild_eq p (b - 1).toNat hlt
          rw [show (((b - 1).toNat : Nat) : Int) = b - 1 by omega, hm] at hm2
          obtain rfl : c = p.children[(b - 1).toNat] := by simpa using hm2
          have hcm := List.getElem_mem hlt
          have hmg : SortSlice.mustGet (⟨m.children⟩ : SortSlice.SortSlice Ptr) (b - 1) = .ok (p.children[(b - 1).toNat]).val := by
            have hcond : ((b - 1) ≥ 0 ∧ (b - 1) < ((SortSlice.len (⟨m.children⟩ : SortSlice.SortSlice Ptr) : Nat) : Int)) := by
              unfold SortSlice.len; rw [hc]; simp only [List.length_map]; omega
            have : SortSlice.get (⟨m.children⟩ : SortSlice.SortSlice Ptr) (b - 1) = .ok ((p.children[(b - 1).toNat]).val, true) := by
              unfold SortSlice.get
              rw [if_pos hcond]
              simp only [Go.get, hc, List.getElem?_map, List.getElem?_eq_getElem hlt, Option.map_some, Res.bind_ok, Res.pure_eq]
            simp [SortSlice.mustGet, this]
          have hsz := child_size hcm
          obtain ⟨t1, t2⟩ := tr ((p, b - 1) :: rest) _ (hr _ hcm) (by omega) (by
            intro x hx
            rcases List.mem_cons.1 hx with rfl | hx
            · exact ⟨rp, hp⟩
            · exact hrest x hx)
          refine ⟨?_, t2⟩
          simp only [List.map_cons] at t1
          have hz := (t2.1 _ rfl).1.ne_zero
          simp only [hd, hmg, t1, Option.map_some, Res.bind, toH, ne_eq, hz, not_false_eq_true, decide_true]
      · simp only [if_neg hb, Res.pure_eq, Res.ok.injEq, Prod.mk.injEq] at e ⊢
        obtain ⟨rfl, rfl⟩ := e
        refine ⟨?_, ⟨fun k hk => ?_, hrest⟩⟩
        · simp [Res.bind, rp.ne_zero]
        · simp only [Option.some.injEq] at hk
          subst hk
          exact ⟨rp, hp⟩

variable [Inhabited α]

/-- What `Get` makes of a pointer. -/
def valAt (h : Heap α) (p : Ptr) : α := (valOf h p).getD default

theorem get_sim {h : Heap α} {B : Nat} (v : Tree.Visitor Ptr) (hv : InMem h B v) :
    get h (toH v) = .ok (valAt h (Tree.get v)) := by
  cases e : v.node with
  | none => simp [get, toH, e, valAt, valOf, Tree.get, deref]
  | some n =>
    obtain ⟨m, hd, _⟩ := (hv.1 n e).1.deref
    simp [get, toH, e, valAt, valOf, Tree.get, hd, (hv.1 n e).1.ne_zero]

/-- The same output, with the value instead of the pointer. -/
def outMap (f : Ptr → α) : CurOut Ptr → CurOut α
  | .moved b => .moved b
  | .val p => .val (f p)

theorem visit_sim {h : Heap α} {B fuel : Nat} (hB : B ≤ fuel) (ops : List CurOp) :
    ∀ (v : Tree.Visitor Ptr) (os : List (CurOut Ptr)), InMem h B v → Tree.run v ops = .ok os →
      visit h fuel (toH v) ops = some (.ok (os.map (outMap (valAt h)))) := by
  induction ops with
  | nil =>
    intro v os _ e
    simp only [Tree.run, Res.pure_eq, Res.ok.injEq] at e
    subst e; rfl
  | cons op ops ih =>
    intro v os hv e
    cases op with
    | next =>
      simp only [Tree.run, Tree.step] at e
      cases e1 : Tree.next v with
      | panic => simp [e1] at e
      | ok r =>
        obtain ⟨v', ok⟩ := r
        obtain ⟨s1, s2⟩ := next_sim v hv v' ok e1
        simp only [e1, Res.bind_ok, Res.pure_eq] at e
        cases e2 : Tree.run v' ops with
        | panic => simp [e2] at e
        | ok os' =>
          simp only [e2, Res.bind_ok, Res.ok.injEq] at e
          subst e
          simp [visit, s1, ih v' os' s2 e2, Res.bind, outMap]
    | prev =>
      simp only [Tree.run, Tree.step] at e
      cases e1 : Tree.prev v with
      | panic => simp [e1] at e
      | ok r =>
        obtain ⟨v', ok⟩ := r
        obtain ⟨s1, s2⟩ := prev_sim hB v hv v' ok e1
        simp only [e1, Res.bind_ok, Res.pure_eq] at e
        cases e2 : Tree.run v' ops with
        | panic => simp [e2] at e
        | ok os' =>
          simp only [e2, Res.bind_ok, Res.ok.injEq] at e
          subst e
          simp [visit, s1, ih v' os' s2 e2, Res.bind, outMap]
    | get =>
      simp only [Tree.run, Tree.step, Res.pure_eq, Res.bind_ok] at e
      cases e2 : Tree.run v ops with
      | panic => simp [e2] at e
      | ok os' =>
        simp only [e2, Res.bind_ok, Res.ok.injEq] at e
        subst e
        simp [visit, get_sim v hv, ih v os' hv e2, Res.bind, outMap]

theorem cursorRun_map (f : Ptr → α) (hf : f default = default) (l : List Ptr) (ops : List CurOp) : ∀ c,
    (cursorRun l c ops).map (outMap f) = cursorRun (l.map f) c ops := by
  induction ops with
  | nil => intro c; rfl
  | cons op ops ih =>
    intro c
    have key : (cursorStep (l.map f) c op).1 = (cursorStep l c op).1 ∧
        (cursorStep (l.map f) c op).2 = outMap f (cursorStep l c op).2 := by
      cases op with
      | next => cases c <;> simp only [cursorStep, List.length_map] <;> (try split) <;>
          first | exact ⟨rfl, rfl⟩ | exact ⟨trivial, rfl⟩
      | prev => cases c <;> simp only [cursorStep, List.length_map] <;> (try split) <;>
          first | exact ⟨rfl, rfl⟩ | exact ⟨trivial, rfl⟩
      | get =>
        cases c with
        | fresh => exact ⟨rfl, by simp only [cursorStep, outMap]; exact congrArg _ hf.symm⟩
        | done => exact ⟨rfl, by simp only [cursorStep, outMap]; exact congrArg _ hf.symm⟩
        | «at» i =>
          simp only [cursorStep, outMap, List.getElem?_map, true_and]
          cases l[i]? with
          | none => exact congrArg _ hf.symm
          | some a => rfl
    simp only [cursorRun, List.map_cons, key.1, key.2, ih]

/-- **C118** A visitor made for a node that leads to a finite tree is, while nobody edits the tree, a cursor on the list
that `All` of the node returns, for every history of calls forward and backward. -/
theorem C118_cursor (h : Heap α) (t : Tree Ptr) (r : Rep h t) (ops : List CurOp) :
    ∃ l, (∀ fuel, sizeOf t ≤ fuel → all h fuel t.val = some (.ok l)) ∧
      ∀ fuel, sizeOf t ≤ fuel → visit h fuel (visitor t.val) ops = some (.ok (cursorRun l .fresh ops)) := by
  obtain ⟨l, a, b⟩ := (C117_all h t.val).1 t r rfl
  refine ⟨l, a, fun fuel hf => ?_⟩
  have := visit_sim hf ops (Tree.visitor t) _ (by simpa [InMem, Tree.visitor] using r) (C16_visitor_cursor t ops)
  have hl : l = (Tree.all t).map (valAt h) := by
    have e := congrArg (List.map fun o : Option α => o.getD default) b
    rw [List.map_map, List.map_map] at e
    exact (by simpa [Function.comp_def] using e :
      l = (Tree.all t).map fun p => (valOf h p).getD default)
  rw [hl, ← cursorRun_map (valAt h) (by simp [valAt, valOf, deref])]
  exact this

/-! ## Editing under a visitor -/

/-- Every child pointer is nil or to a node. -/
def Closed (h : Heap α) : Prop := ∀ p n, deref h p = .ok n → ∀ c ∈ n.children, c = 0 ∨ Valid h c

/-- The pointers of a visitor are nil or to nodes; nil only where the visitor was made. -/
def Fit (h : Heap α) (v : Visitor) : Prop :=
  (v.node = 0 ∨ Valid h v.node) ∧ ∀ x ∈ v.stk, (x.1 = 0 ∧ x.2 < 0) ∨ Valid h x.1

theorem nextBrother_mem {i : Int} {l : List Ptr} {c : Ptr} {j : Int} (e : nextBrother i l = some (c, j)) : c ∈ l ∧ c ≠ 0 := by
  induction l generalizing i with
  | nil => simp [nextBrother] at e
  | cons x xs ih =>
    unfold nextBrother at e
    split at e
    · have := ih e; exact ⟨by simp [this.1], this.2⟩
    · simp only [Option.some.injEq, Prod.mk.injEq] at e
      rename_i hx
      exact ⟨by simp [e.1], e.1 ▸ hx⟩

theorem nextLoop_fit {h : Heap α} (hc : Closed h) : ∀ stk : List (Ptr × Int),
    (∀ x ∈ stk, (x.1 = 0 ∧ x.2 < 0) ∨ Valid h x.1) → ∃ v', nextLoop h stk = .ok v' ∧ Fit h v' := by
  intro stk
  induction stk with
  | nil => intro _; exact ⟨⟨0, []⟩, rfl, .inl rfl, by simp⟩
  | cons x rest ih =>
    obtain ⟨p, b⟩ := x
    intro hs
    have hrest := fun x hx => hs x (List.mem_cons_of_mem _ hx)
    unfold nextLoop
    by_cases hb : b < 0
    · simp only [if_pos hb]
      by_cases hp : p = 0
      · simp only [if_pos hp]; exact ih hrest
      · simp only [if_neg hp]
        rcases hs (p, b) (by simp) with h0 | hv
        · exact absurd h0.1 hp
        · exact ⟨⟨p, rest⟩, rfl, .inr hv, hrest⟩
    · simp only [if_neg hb]
      rcases hs (p, b) (by simp) with h0 | hv
      · exact absurd h0.2 hb
      · obtain ⟨n, hd⟩ := hv
        simp only at hd
        simp only [hd, Res.bind_ok]
        cases e : nextBrother (b + 1) (n.children.drop (b.toNat + 1)) with
        | none => simp only; exact ih hrest
        | some r =>
          obtain ⟨c, i⟩ := r
          obtain ⟨hm, h0⟩ := nextBrother_mem e
          refine ⟨⟨c, (p, i) :: rest⟩, rfl, .inr ((hc p n hd c (List.mem_of_mem_drop hm)).resolve_left h0), fun x hx => ?_⟩
          rcases List.mem_cons.1 hx with rfl | hx
          · exact .inr ⟨n, hd⟩
          · exact hrest x hx

theorem next_fit {h : Heap α} (hc : Closed h) (v : Visitor) (hv : Fit h v) : ∃ v' ok, next h v = .ok (v', ok) ∧ Fit h v' := by
  have : ∃ v', nextState h v = .ok v' ∧ Fit h v' := by
    unfold nextState
    by_cases h0 : v.node = 0
    · rw [if_neg (by simpa using h0)]
      exact nextLoop_fit hc _ hv.2
    · rw [if_pos h0]
      obtain ⟨n, hd⟩ := hv.1.resolve_left h0
      simp only [hd, Res.bind_ok]
      have hstk : ∀ x ∈ (v.node, (0 : Int)) :: v.stk, (x.1 = 0 ∧ x.2 < 0) ∨ Valid h x.1 := by
        intro x hx
        rcases List.mem_cons.1 hx with rfl | hx
        · exact .inr ⟨n, hd⟩
        · exact hv.2 x hx
      cases e : n.children with
      | nil => exact nextLoop_fit hc _ hv.2
      | cons c cs =>
        simp only
        by_cases hz : c = 0
        · rw [if_neg (by simpa using hz)]
          exact nextLoop_fit hc _ hstk
        · rw [if_pos hz]
          exact ⟨_, rfl, .inr ((hc v.node n hd c (by simp [e])).resolve_left hz), hstk⟩
  obtain ⟨v', e, hf⟩ := this
  exact ⟨v', decide (v'.node ≠ 0), by simp [next, e], hf⟩

theorem topRight_fit {h : Heap α} : ∀ (fuel : Nat) (stk : List (Ptr × Int)) (p : Ptr) (v' : Visitor),
    (∀ x ∈ stk, (x.1 = 0 ∧ x.2 < 0) ∨ Valid h x.1) → topRight h fuel stk p = some (.ok v') → Fit h v' := by
  intro fuel
  induction fuel with
  | zero => intro stk p v' _ e; simp [topRight] at e
  | succ fuel ih =>
    intro stk p v' hs e
    unfold topRight at e
    cases hd : deref h p with
    | panic => simp [hd] at e
    | ok n =>
      simp only [hd] at e
      cases hg : n.children.getLast? with
      | none =>
        simp only [hg, Option.some.injEq, Res.ok.injEq] at e
        subst e
        exact ⟨.inr ⟨n, hd⟩, hs⟩
      | some c =>
        simp only [hg] at e
        refine ih _ c v' (fun x hx => ?_) e
        rcases List.mem_cons.1 hx with rfl | hx
        · exact .inr ⟨n, hd⟩
        · exact hs x hx

theorem topRightOf_fit {h : Heap α} {fuel : Nat} {stk : List (Ptr × Int)} {p : Ptr} {v' : Visitor}
    (hs : ∀ x ∈ stk, (x.1 = 0 ∧ x.2 < 0) ∨ Valid h x.1) (e : topRightOf h fuel stk p = some (.ok v')) : Fit h v' := by
  unfold topRightOf at e
  split at e
  · simp only [Option.some.injEq, Res.ok.injEq] at e
    subst e; exact ⟨.inl rfl, hs⟩
  · exact topRight_fit fuel stk p v' hs e

theorem prev_fit {h : Heap α} (fuel : Nat) (v : Visitor) (hv : Fit h v) (v' : Visitor) (ok : Bool)
    (e : prev h fuel v = some (.ok (v', ok))) : Fit h v' := by
  have done : ∀ r : Option (Res Visitor),
      (r.map fun x => x.bind fun v' => Res.ok (v', decide (v'.node ≠ 0))) = some (.ok (v', ok)) → r = some (.ok v') := by
    intro r hr
    cases r with
    | none => simp at hr
    | some x =>
      cases x with
      | panic => simp [Res.bind] at hr
      | ok w =>
        simp only [Option.map_some, Res.bind, Option.some.injEq, Res.ok.injEq, Prod.mk.injEq] at hr
        rw [hr.1]
  obtain ⟨vn, stk⟩ := v
  unfold prev at e
  by_cases h0 : vn = 0
  · simp only [if_pos h0] at e
    cases stk with
    | nil =>
      simp only [Option.some.injEq, Res.ok.injEq, Prod.mk.injEq] at e
      rw [← e.1]; exact hv
    | cons x rest => exact topRightOf_fit (fun y hy => hv.2 y (List.mem_cons_of_mem _ hy)) (done _ e)
  · simp only [if_neg h0] at e
    cases stk with
    | nil =>
      have := done _ e
      simp only [Option.some.injEq, Res.ok.injEq] at this
      subst this; exact ⟨.inl rfl, by simp⟩
    | cons x rest =>
      obtain ⟨p, b⟩ := x
      have hrest := fun y hy => hv.2 y (List.mem_cons_of_mem (p, b) hy)
      have hx := hv.2 (p, b) (by simp)
      by_cases hb : b > 0
      · simp only [if_pos hb] at e
        cases hd : deref h p with
        | panic => simp [hd] at e
        | ok n =>
          simp only [hd] at e
          cases hm : SortSlice.mustGet (⟨n.children⟩ : SortSlice.SortSlice Ptr) (b - 1) with
          | panic => simp [hm] at e
          | ok c =>
            simp only [hm] at e
            refine topRightOf_fit (fun y hy => ?_) (done _ e)
            rcases List.mem_cons.1 hy with rfl | hy
            · exact .inr ⟨n, hd⟩
            · exact hrest y hy
      · simp only [if_neg hb] at e
        have := done _ e
        simp only [Option.some.injEq, Res.ok.injEq] at this
        subst this
        refine ⟨?_, hrest⟩
        rcases hx with hx | hx
        · exact .inl hx.1
        · exact .inr hx

/-- What can happen while a visitor is in use: any call that edits nodes, with pointers that are nil or to nodes, and calls
of `Next` and `Prev`; all of them calls that return. -/
inductive Walk (less : α → α → Bool) (S : SortFn) : Heap α → Visitor → Heap α → Visitor → Prop
  | refl (h v) : Walk less S h v h v
  | edit {h v h' v' h'' op r} : Walk less S h v h' v' →
      (∀ this node idx, op = .addChildNode this node idx → node = 0 ∨ Valid h' node) →
      step less S h' op = .ok (h'', r) → Walk less S h v h'' v'
  | next {h v h' v' v'' ok} : Walk less S h v h' v' → next h' v' = .ok (v'', ok) → Walk less S h v h' v''
  | prev {h v h' v' v'' ok fuel} : Walk less S h v h' v' → prev h' fuel v' = some (.ok (v'', ok)) → Walk less S h v h' v''

theorem valid_new {h : Heap α} {p : Ptr} (v : α) (hp : Valid h p) : Valid (new h v).1 p := by
  obtain ⟨n, hn⟩ := hp; exact ⟨n, deref_new v hn⟩

theorem valid_store {h : Heap α} {p q : Ptr} {n m : Node α} (hd : deref h p = .ok n) (hq : Valid h q) :
    Valid (store h p m) q := by
  by_cases e : q = p
  · subst e; exact ⟨m, deref_store_self hd m⟩
  · obtain ⟨k, hk⟩ := hq; exact ⟨k, (deref_store_ne (deref_ok.1 hd).1 e m).trans hk⟩

theorem closed_store {h : Heap α} (hc : Closed h) {p : Ptr} {n m : Node α} (hd : deref h p = .ok n)
    (hm : ∀ c ∈ m.children, c ∈ n.children ∨ c = 0 ∨ Valid h c) : Closed (store h p m) := by
  intro q k hq c hcm
  by_cases e : q = p
  · subst e
    rw [deref_store_self hd] at hq
    obtain rfl : m = k := by simpa using hq
    rcases hm c hcm with h1 | h1 | h1
    · exact (hc q n hd c h1).imp_right (valid_store hd)
    · exact .inl h1
    · exact .inr (valid_store hd h1)
  · rw [deref_store_ne (deref_ok.1 hd).1 e] at hq
    exact (hc q k hq c hcm).imp_right (valid_store hd)

theorem closed_new {h : Heap α} (hc : Closed h) (v : α) : Closed (new h v).1 := by
  intro q k hq c hcm
  rcases deref_new_cases hq with hq | rfl
  · exact (hc q k hq c hcm).imp_right (valid_new v)
  · simp at hcm

theorem addChildNode_closed {h h' : Heap α} (hc : Closed h) (this node : Ptr) (idx : Int) (r : Ptr)
    (hn : node = 0 ∨ Valid h node) (e : addChildNode h this node idx = .ok (h', r)) :
    Closed h' ∧ ∀ p, Valid h p → Valid h' p := by
  unfold addChildNode at e
  cases hd : deref h this with
  | panic => simp [hd] at e
  | ok n =>
    simp only [hd, Res.bind_ok, Res.pure_eq, Res.ok.injEq, Prod.mk.injEq] at e
    obtain ⟨rfl, _⟩ := e
    refine ⟨closed_store hc hd fun c hcm => ?_, fun p => valid_store hd⟩
    rcases insert_mem _ _ _ c hcm with rfl | h1
    · exact .inr hn
    · exact .inl h1

theorem step_closed (less : α → α → Bool) (S : SortFn) {h h' : Heap α} (hc : Closed h) (op : Op α) (r : Ptr)
    (hn : ∀ this node idx, op = .addChildNode this node idx → node = 0 ∨ Valid h node)
    (e : step less S h op = .ok (h', r)) : Closed h' ∧ ∀ p, Valid h p → Valid h' p := by
  cases op with
  | new v =>
    simp only [step, Res.pure_eq, Res.ok.injEq] at e
    rw [← show (new h v).1 = h' from congrArg Prod.fst e]
    exact ⟨closed_new hc v, fun p => valid_new v⟩
  | addChild this v idx =>
    obtain ⟨a, b⟩ := addChildNode_closed (closed_new hc v) this (new h v).2 idx r (.inr ⟨_, deref_new_self h v⟩) e
    exact ⟨a, fun p hp => b p (valid_new v hp)⟩
  | addChildNode this node idx => exact addChildNode_closed hc this node idx r (hn _ _ _ rfl) e
  | removeChild this idx =>
    simp only [step] at e
    cases hd : deref h this with
    | panic => simp [removeChild, hd] at e
    | ok n =>
      by_cases hi : idx < 0 ∨ (n.children.length : Int) ≤ idx
      · have := C117_removeChild_range h this n idx hd hi
        simp only [this, Res.bind_ok, Res.pure_eq, Res.ok.injEq, Prod.mk.injEq] at e
        rw [← e.1]; exact ⟨hc, fun _ h => h⟩
      · obtain ⟨i, rfl⟩ := Int.eq_ofNat_of_zero_le (a := idx) (by omega)
        obtain ⟨h2, e1, e2, e3, _⟩ := C117_removeChild h this n i hd (by omega)
        simp only [e1, Res.bind_ok, Res.pure_eq, Res.ok.injEq, Prod.mk.injEq] at e
        obtain ⟨rfl, _⟩ := e
        have hval : ∀ p, Valid h p → Valid h2 p := by
          intro p ⟨k, hk⟩
          by_cases ep : p = this
          · subst ep; exact ⟨_, e3⟩
          · exact ⟨k, (e2 p ep).trans hk⟩
        refine ⟨fun q k hq c hcm => ?_, hval⟩
        by_cases ep : q = this
        · subst ep
          rw [e3] at hq
          simp only [Res.ok.injEq] at hq
          subst hq
          exact (hc q n hd c (List.mem_of_mem_eraseIdx hcm)).imp_right (hval c)
        · rw [e2 q ep] at hq
          exact (hc q k hq c hcm).imp_right (hval c)
  | sortChildren this =>
    simp only [step, sortChildren] at e
    cases hd : deref h this with
    | panic => simp [hd] at e
    | ok n =>
      simp only [hd, Res.bind_ok] at e
      split at e
      · simp at e
      · simp only [Res.pure_eq, Res.bind_ok, Res.ok.injEq, Prod.mk.injEq] at e
        obtain ⟨rfl, _⟩ := e
        exact ⟨closed_store hc hd fun c hcm => .inl ((S.perm _ _).mem_iff.1 hcm), fun p => valid_store hd⟩

theorem walk_fit (less : α → α → Bool) (S : SortFn) {h h' : Heap α} {v v' : Visitor} (w : Walk less S h v h' v')
    (hc : Closed h) (hv : Fit h v) : Closed h' ∧ Fit h' v' := by
  induction w with
  | refl => exact ⟨hc, hv⟩
  | edit _ hn e ih =>
    obtain ⟨c, f⟩ := ih
    obtain ⟨a, b⟩ := step_closed less S c _ _ hn e
    exact ⟨a, f.1.imp_right (b _), fun x hx => (f.2 x hx).imp_right (b _)⟩
  | next _ e ih =>
    obtain ⟨c, f⟩ := ih
    obtain ⟨v2, ok, e2, f2⟩ := next_fit c _ f
    rw [e] at e2
    simp only [Res.ok.injEq, Prod.mk.injEq] at e2
    exact ⟨c, e2.1 ▸ f2⟩
  | prev _ e ih =>
    obtain ⟨c, f⟩ := ih
    exact ⟨c, prev_fit _ _ f _ _ e⟩

/-- **C118** `Next` always returns and never panics, and neither does `Get`, whatever edits are made under the visitor and
however it was moved before: with nil children, nodes removed, shared or in cycles. -/
theorem C118_next_safe (less : α → α → Bool) (S : SortFn) (h h' : Heap α) (p : Ptr) (v' : Visitor)
    (hc : ∀ q n, deref h q = .ok n → ∀ c ∈ n.children, c = 0 ∨ Valid h c) (hp : p = 0 ∨ Valid h p)
    (w : Walk less S h (visitor p) h' v') :
    (∃ v'' ok, next h' v' = .ok (v'', ok)) ∧ ∃ x, get h' v' = .ok x := by
  have hf : Fit h (visitor p) := by
    refine ⟨.inl rfl, fun x hx => ?_⟩
    simp only [visitor, List.mem_singleton] at hx
    subst hx
    exact hp.imp (fun e => ⟨e, by simp⟩) id
  obtain ⟨c, f⟩ := walk_fit less S w hc hf
  obtain ⟨v'', ok, e, _⟩ := next_fit c v' f
  refine ⟨⟨v'', ok, e⟩, ?_⟩
  by_cases h0 : v'.node = 0
  · exact ⟨default, by simp [get, h0]⟩
  · obtain ⟨n, hd⟩ := f.1.resolve_left h0
    exact ⟨n.val, by simp [get, h0, hd]⟩

theorem topRight_no_panic {h : Heap α} (hc : ∀ q n, deref h q = .ok n → ∀ c ∈ n.children, Valid h c) :
    ∀ (fuel : Nat) (stk : List (Ptr × Int)) (p : Ptr), Valid h p → topRight h fuel stk p ≠ some .panic := by
  intro fuel
  induction fuel with
  | zero => intro stk p _; simp [topRight]
  | succ fuel ih =>
    intro stk p ⟨n, hd⟩
    unfold topRight
    simp only [hd]
    cases hg : n.children.getLast? with
    | none => simp
    | some c => exact ih _ c (hc p n hd c (List.mem_of_getLast? hg))

theorem topRightOf_no_panic {h : Heap α} (hc : ∀ q n, deref h q = .ok n → ∀ c ∈ n.children, Valid h c) (fuel : Nat)
    (stk : List (Ptr × Int)) (p : Ptr) (hp : p = 0 ∨ Valid h p) : topRightOf h fuel stk p ≠ some .panic := by
  unfold topRightOf
  split
  · simp
  · exact topRight_no_panic hc fuel stk p (hp.resolve_left (by assumption))

/-- **C118** `Prev` in a memory without nil children panics in exactly one case: the visitor is at a node, and of the
children of its parent so many were removed that none is left at the place before the visitor. -/
theorem C118_prev (less : α → α → Bool) (S : SortFn) (h h' : Heap α) (p : Ptr) (v' : Visitor) (fuel : Nat)
    (hc : ∀ q n, deref h q = .ok n → ∀ c ∈ n.children, c = 0 ∨ Valid h c) (hp : p = 0 ∨ Valid h p)
    (w : Walk less S h (visitor p) h' v') (hn : ∀ q n, deref h' q = .ok n → 0 ∉ n.children) :
    prev h' fuel v' = some .panic ↔
      v'.node ≠ 0 ∧ ∃ q b rest n, v'.stk = (q, b) :: rest ∧ deref h' q = .ok n ∧ 0 < b ∧ (n.children.length : Int) < b := by
  have hf : Fit h (visitor p) := by
    refine ⟨.inl rfl, fun x hx => ?_⟩
    simp only [visitor, List.mem_singleton] at hx
    subst hx
    exact hp.imp (fun e => ⟨e, by simp⟩) id
  obtain ⟨c, f⟩ := walk_fit less S w hc hf
  have hv : ∀ q n, deref h' q = .ok n → ∀ c ∈ n.children, Valid h' c := fun q n hd x hx =>
    (c q n hd x hx).resolve_left fun e => hn q n hd (e ▸ hx)
  have done : ∀ r : Option (Res Visitor), r ≠ some .panic →
      (r.map fun x => x.bind fun v' => Res.ok (v', decide (v'.node ≠ 0))) ≠ some .panic := by
    intro r hr
    cases r with
    | none => simp
    | some x =>
      cases x with
      | panic => exact absurd rfl hr
      | ok w => simp [Res.bind]
  obtain ⟨vn, stk⟩ := v'
  unfold prev
  by_cases h0 : vn = 0
  · simp only [if_pos h0]
    refine iff_of_false ?_ (fun x => x.1 h0)
    cases stk with
    | nil => simp
    | cons x rest =>
      refine done _ (topRightOf_no_panic hv _ _ _ ?_)
      exact (f.2 x (by simp)).imp (fun e => e.1) id
  · simp only [if_neg h0]
    cases stk with
    | nil => exact iff_of_false (by simp [Res.bind]) (by simp)
    | cons x rest =>
      obtain ⟨q, b⟩ := x
      by_cases hb : b > 0
      · simp only [if_pos hb]
        obtain ⟨n, hd⟩ := (f.2 (q, b) (by simp)).resolve_left (fun e => by have := e.2; simp only at this; omega)
        simp only at hd
        simp only [hd]
        by_cases hlen : (n.children.length : Int) < b
        · have hm : SortSlice.mustGet (⟨n.children⟩ : SortSlice.SortSlice Ptr) (b - 1) = .panic := by
            unfold SortSlice.mustGet SortSlice.get SortSlice.len
            simp only
            rw [if_neg (by omega)]; rfl
          simp only [hm, true_iff]
          exact ⟨h0, q, b, rest, n, rfl, hd, hb, hlen⟩
        · have hlt : (b - 1).toNat < n.children.length := by omega
          have hm : SortSlice.mustGet (⟨n.children⟩ : SortSlice.SortSlice Ptr) (b - 1) = .ok n.children[(b - 1).toNat] := by
            unfold SortSlice.mustGet SortSlice.get SortSlice.len
            simp only
            rw [if_pos (by omega)]
            simp only [Go.get, List.getElem?_eq_getElem hlt, Res.bind_ok]; rfl
          simp only [hm]
          refine iff_of_false (done _ (topRightOf_no_panic hv _ _ _ (.inr (hv q n hd _ (List.getElem_mem hlt))))) ?_
          rintro ⟨_, q', b', rest', n', e1, e2, _, e4⟩
          simp only [List.cons.injEq, Prod.mk.injEq] at e1
          obtain ⟨⟨rfl, rfl⟩, _⟩ := e1
          rw [hd] at e2
          obtain rfl : n = n' := by simpa using e2
          exact hlen e4
      · simp only [if_neg hb]
        refine iff_of_false (by simp [Res.bind]) ?_
        rintro ⟨_, q', b', rest', n', e1, _, e3, _⟩
        simp only [List.cons.injEq, Prod.mk.injEq] at e1
        exact hb (e1.1.2 ▸ e3)

/-- **C118** `Prev` is not safe: when children before the current node have been removed it panics.  The visitor is at the
last of three children, two children are removed, and `Prev` asks for the second one. -/
theorem C118_prev_false :
    let h : Heap Int := ⟨[⟨0, [2, 3, 4]⟩, ⟨1, []⟩, ⟨2, []⟩, ⟨3, []⟩]⟩
    ∃ v h1 h2, prev h 9 (visitor 1) = some (.ok (v, true)) ∧ get h v = .ok 3 ∧
      removeChild h 1 0 = .ok (h1, 2, true) ∧ removeChild h1 1 0 = .ok (h2, 3, true) ∧
      ∀ fuel, prev h2 fuel v = some .panic :=
  ⟨⟨4, [(1, 2)]⟩, ⟨[⟨0, [3, 4]⟩, ⟨1, []⟩, ⟨2, []⟩, ⟨3, []⟩]⟩, ⟨[⟨0, [4]⟩, ⟨1, []⟩, ⟨2, []⟩, ⟨3, []⟩]⟩, by decide, by decide,
    by decide, by decide, fun _ => rfl⟩

/-- **C118** Removing the child a visitor is at makes `Next` skip the child that takes its place. -/
theorem C118_remove_skips :
    let h : Heap Int := ⟨[⟨0, [2, 3, 4]⟩, ⟨1, []⟩, ⟨2, []⟩, ⟨3, []⟩]⟩
    let v : Visitor := ⟨2, [(1, 0)]⟩
    ∃ h' v', removeChild h 1 0 = .ok (h', 2, true) ∧ next h' v = .ok (v', true) ∧ get h' v' = .ok 3 :=
  ⟨⟨[⟨0, [3, 4]⟩, ⟨1, []⟩, ⟨2, []⟩, ⟨3, []⟩]⟩, ⟨4, [(1, 1)]⟩, by decide, by decide, by decide⟩

/-! ## Cases -/

/-- A tree of five nodes, and a sixth node outside it: 1 has the children 2 and 3, 2 has the children 4 and 5. -/
def sample : Heap Int := ⟨[⟨10, [2, 3]⟩, ⟨20, [4, 5]⟩, ⟨30, []⟩, ⟨40, []⟩, ⟨50, []⟩, ⟨60, []⟩]⟩

def sampleTree : Tree Ptr := .node 1 [.node 2 [.node 4 [], .node 5 []], .node 3 []]

theorem sample_rep : Rep sample sampleTree := by
  have leaf : ∀ (p : Ptr) v, deref sample p = .ok ⟨v, []⟩ → Rep sample (.node p []) := fun p v h => .node _ _ _ h rfl (by simp)
  refine .node 1 ⟨10, [2, 3]⟩ _ rfl rfl fun c hc => ?_
  simp only [List.mem_cons, List.not_mem_nil, or_false] at hc
  rcases hc with rfl | rfl
  · refine .node 2 ⟨20, [4, 5]⟩ _ rfl rfl fun c hc => ?_
    simp only [List.mem_cons, List.not_mem_nil, or_false] at hc
    rcases hc with rfl | rfl
    · exact leaf 4 40 rfl
    · exact leaf 5 50 rfl
  · exact leaf 3 30 rfl

example : all sample 3 1 = some (.ok [10, 20, 40, 50, 30]) := by decide

example : ∃ l, (∀ fuel, sizeOf sampleTree ≤ fuel → all sample fuel 1 = some (.ok l)) ∧
    ∀ fuel, sizeOf sampleTree ≤ fuel →
      visit sample fuel (visitor 1) [.next, .next, .get, .prev] = some (.ok (cursorRun l .fresh [.next, .next, .get, .prev])) :=
  C118_cursor sample sampleTree sample_rep _

-- node 6 is added below node 2 and the tree of node 1 has it
example : ∃ h', addChildNode sample 2 6 (-1) = .ok (h', 6) ∧ all h' 4 1 = some (.ok [10, 20, 40, 50, 60, 30]) :=
  ⟨_, rfl, by decide⟩

example : (2 : Ptr) ∉ Tree.all (Tree.node 6 [] : Tree Ptr) := by decide

-- node 2 is removed and keeps its tree
example : ∃ h', removeChild sample 1 0 = .ok (h', 2, true) ∧ all h' 3 1 = some (.ok [10, 30]) ∧
    all h' 3 2 = some (.ok [20, 40, 50]) := ⟨_, rfl, by decide, by decide⟩

-- node 1 is added below node 5: no result with any fuel
example : ∃ h', addChildNode sample 5 1 (-1) = .ok (h', 1) ∧ ∀ fuel, all h' fuel 5 = none :=
  C117_cycle sample 5 sampleTree (-1) sample_rep (by decide)

open Classical in
/-- There are such sorts: the merge sort of the library. -/
noncomputable def someSort : SortFn where
  sort less l := if h : ∃ lt, StrictWeak lt ∧ ∀ a ∈ l, ∀ b ∈ l, less a b = lt a b then
    l.mergeSort (fun a b => !(h.choose b a)) else l
  perm less l := by
    split
    · exact List.mergeSort_perm _ _
    · exact List.Perm.refl _
  sorted less l h := by
    rw [dif_pos h]
    obtain ⟨hs, he⟩ := h.choose_spec
    have hp := List.pairwise_mergeSort (le := fun a b => !(h.choose b a))
      (fun a b c h1 h2 => by
        simp only [Bool.not_eq_eq_eq_not, Bool.not_true] at h1 h2 ⊢
        cases e : h.choose c a with
        | false => rfl
        | true => rcases hs.negTrans c b a e with e | e <;> simp [e] at h1 h2)
      (fun a b => by
        cases e1 : h.choose b a with
        | false => simp
        | true =>
          cases e2 : h.choose a b with
          | false => simp
          | true => exact absurd (hs.trans _ _ _ e1 e2) (by simp [hs.irrefl])) l
    refine List.Pairwise.imp_of_mem (fun {a b} ha hb hab => ?_) hp
    have ha' := (List.mergeSort_perm _ _).mem_iff.1 ha
    have hb' := (List.mergeSort_perm _ _).mem_iff.1 hb
    rw [he b hb' a ha']
    simpa using hab

-- a history: three nodes are made, two of them become children of the first, the children are sorted
example : ∃ h, runOps (fun a b : Int => decide (a < b)) someSort ⟨[]⟩
      [.new 1, .addChild 1 3 (-1), .addChild 1 2 (-1), .sortChildren 1] = .ok h ∧
    ∀ p, Valid h p → ∃ fuel l, all h fuel p = some (.ok l) := by
  refine C117_history _ _ ⟨by simp, fun a b c => by simp only [decide_eq_true_eq]; omega, fun a b c => by
    simp only [decide_eq_true_eq]; omega⟩ _ ?_
  refine ⟨trivial, fun h1 r1 e1 => ⟨?_, fun h2 r2 e2 => ⟨?_, fun h3 r3 e3 => ⟨?_, fun _ _ _ => trivial⟩⟩⟩⟩
  all_goals
    obtain rfl : (⟨[⟨1, []⟩]⟩ : Heap Int) = h1 := congrArg Prod.fst (Res.ok.inj e1)
  · exact ⟨_, rfl⟩
  all_goals
    obtain rfl : (⟨[⟨1, [2]⟩, ⟨3, []⟩]⟩ : Heap Int) = h2 := congrArg Prod.fst (Res.ok.inj e2)
  · exact ⟨_, rfl⟩
  · obtain rfl : (⟨[⟨1, [2, 3]⟩, ⟨3, []⟩, ⟨2, []⟩]⟩ : Heap Int) = h3 := congrArg Prod.fst (Res.ok.inj e3)
    exact ⟨_, rfl⟩

-- a walk: the visitor is moved to node 2, node 2 is removed, the visitor is moved on
example : ∃ h' v', Walk (fun a b : Int => decide (a < b)) someSort sample (visitor 1) h' v' ∧ v'.node = 4 ∧
    deref h' 1 = .ok ⟨10, [3]⟩ :=
  ⟨_, _, .next (.edit (.next (.next (.refl _ _) (v'' := ⟨1, []⟩) (ok := true) rfl) (v'' := ⟨2, [(1, 0)]⟩) (ok := true) rfl)
    (op := .removeChild 1 0) (by simp) rfl) (v'' := ⟨4, [(2, 0), (1, 0)]⟩) (ok := true) rfl, rfl, rfl⟩

/-- Two nodes are made and one is put below the other. -/
example (less : Int → Int → Bool) (hl : StrictWeak less) := C117_forest less someSort hl [.new 1, .new 2, .addChildNode 1 2 (-1)] (by
  refine ⟨⟨trivial, trivial⟩, fun h1 r1 e1 => ⟨⟨trivial, trivial⟩, fun h2 r2 e2 => ⟨?_, fun _ _ _ => trivial⟩⟩⟩
  obtain rfl : (⟨[⟨1, []⟩]⟩ : Heap Int) = h1 := congrArg Prod.fst (Res.ok.inj e1)
  obtain rfl : (⟨[⟨1, []⟩, ⟨2, []⟩]⟩ : Heap Int) = h2 := congrArg Prod.fst (Res.ok.inj e2)
  refine ⟨⟨⟨_, rfl⟩, ⟨_, rfl⟩, ?_⟩, ?_⟩
  · intro u r e
    cases r with
    | node p n cs hd hc hr =>
      obtain rfl : p = 2 := e
      obtain rfl : (⟨2, []⟩ : Node Int) = n := Res.ok.inj hd
      obtain rfl : cs = [] := List.map_eq_nil_iff.1 hc.symm
      decide
  · rintro a ⟨n, hn, hb⟩
    match a, hn with
    | 1, hn => obtain rfl : (⟨1, []⟩ : Node Int) = n := Res.ok.inj hn; simp at hb
    | 2, hn => obtain rfl : (⟨2, []⟩ : Node Int) = n := Res.ok.inj hn; simp at hb)

end Verif.TreeHeap

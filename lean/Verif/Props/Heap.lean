import Verif.Heap.Program
import Verif.Props.Print
/-!
# C74–C76: expressions own their memory

`Verif/Heap/Spec.lean` says what a client program means if every variable holds a tree of its own.
-/
namespace Symxx.Heap
open Symxx Symxx.Num Symxx.Sym

variable {env : FEnv} {dec : List Char → Res Rational}

/-- no variable in scope. -/
def nothing : Vals := fun _ => none

/-! ### C74 -/

/-- every program that does not assign an operator node to another operator node runs without a memory fault, and its
outcomes are those of the same program on trees: copies are independent, nothing is shared, nothing is used after it has
been deleted. -/
theorem C74_values_partial {is : List Stmt} (h : AllAllowed env dec nothing is) :
    ∃ rs s v, run env dec State.init is = some (rs, s) ∧ Steps env dec nothing is rs v := by
  obtain ⟨rs, s, v, _, _, _, h1, h2, -, -⟩ := run_rep Rep.init h
  exact ⟨rs, s, v, h1, h2.steps⟩

/-- in particular a program without assignments. -/
theorem C74_no_assignment {is : List Stmt} (h : ∀ i ∈ is, ∀ x y, i ≠ .assign x y) :
    ∃ rs s v, run env dec State.init is = some (rs, s) ∧ Steps env dec nothing is rs v := by
  apply C74_values_partial
  generalize nothing = v
  induction is generalizing v with
  | nil => trivial
  | cons i is ih =>
    refine ⟨?_, fun r v' _ _ => ih (fun j hj => h j (List.mem_cons_of_mem _ hj)) v'⟩
    cases i with
    | assign x y => exact absurd rfl (h _ List.mem_cons_self x y)
    | _ => trivial

/-- an expression, a copy, an in-place change of the original, both printed; the copy is destroyed and the original printed
again. -/
def prog : List Stmt := [.parse 0 "(1+1)*x^y".toList, .copy 1 0, .normalize 0, .print 0, .print 1, .destroy 1, .print 0,
  .destroy 0]
theorem prog_runs : (run fenv64 nodec State.init prog).map Prod.fst =
    some [.ok [], .ok [], .ok [], .ok "2*x^y".toList, .ok "(1+1)*x^y".toList, .ok [], .ok "2*x^y".toList, .ok []] := by
  decide +kernel
example := C74_no_assignment (env := fenv64) (dec := nodec) (is := prog) (by
  intro i hi x y
  rintro rfl
  simp [prog] at hi)
/-- assigning a fraction to a variable that holds an operator node is allowed. -/
example (f : Frac) : AllAllowed fenv64 nodec nothing [.parse 0 "x^y".toList, .leaf 1 f, .assign 0 1, .print 0] := by
  refine ⟨trivial, fun r v hv _ => ⟨trivial, fun r' v' hv' _ => ⟨?_, fun _ _ _ _ => ⟨trivial, fun _ _ _ _ => trivial⟩⟩⟩⟩
  intro _ t u _ hu _ ho
  have h1 : v 1 = none := by
    simp only [Step, nothing] at hv
    rcases hv with ⟨-, hv⟩
    cases he : Node.ofText fenv64 nodec "x^y".toList <;> rw [he] at hv <;> simp only at hv <;> subst hv <;> rfl
  simp only [Step, h1] at hv'
  rw [hv'.2, Function.update_self] at hu
  cases hu
  cases ho

/-! ### C75 -/

/-- what is alive when no variable is in scope any more is what `parse` has left behind: as many nodes as the trees parsed. -/
theorem C75_leaks {is : List Stmt} (h : AllAllowed env dec nothing is) :
    ∃ rs s v n, run env dec State.init is = some (rs, s) ∧ Leaks env dec nothing is rs v n ∧
      ((∀ x, s.var x = none) → ∃ live : List Nat, live.Nodup ∧ live.length = n ∧ ∀ a, s.mem.cell a ≠ none ↔ a ∈ live) := by
  obtain ⟨rs, s, v, foot, leak, n, h1, h2, h3, h4⟩ := run_rep Rep.init h
  refine ⟨rs, s, v, n, h1, h2, fun hx => ⟨leak, h3.nodup, by simpa using h4, fun a => ⟨fun ha => ?_, fun ha => (h3.leaked a ha).1⟩⟩⟩
  rcases h3.all a ha with hl | ⟨x, hf⟩
  · exact hl
  · rw [(h3.unset x (hx x)).2] at hf
    simp at hf

/-- a program that does not parse leaks nothing. -/
theorem C75_no_leak_partial {is : List Stmt} (h : AllAllowed env dec nothing is) (hp : ∀ i ∈ is, ∀ x t, i ≠ .parse x t) :
    ∃ rs s, run env dec State.init is = some (rs, s) ∧ ((∀ x, s.var x = none) → ∀ a, s.mem.cell a = none) := by
  obtain ⟨rs, s, v, n, h1, h2, h3⟩ := C75_leaks h
  refine ⟨rs, s, h1, fun hx a => ?_⟩
  obtain ⟨live, -, hl, ha⟩ := h3 hx
  have hn : n = 0 := by
    clear h1 h3 hl ha h
    generalize nothing = w at h2
    have z : ∀ (w : Vals) (i : Stmt), (∀ x t, i ≠ .parse x t) → leakOf env dec w i = 0 := by
      intro w i hi
      cases i with
      | parse x t => exact absurd rfl (hi x t)
      | _ => rfl
    induction h2 with
    | nil => rfl
    | stop => exact z _ _ (hp _ List.mem_cons_self)
    | cons _ _ _ ih =>
      rw [z _ _ (hp _ List.mem_cons_self), ih (fun j hj => hp j (List.mem_cons_of_mem _ hj))]
  rw [hn] at hl
  rw [List.length_eq_zero_iff.1 hl] at ha
  by_contra hc
  simpa using (ha a).1 hc

/-- the full claim (no leak) is false: parsing a text leaves all nodes of its tree behind. -/
theorem C75_parse_leaks {text : List Char} {t : Node} (h : Node.ofText env dec text = .ok t) :
    ∃ rs s, run env dec State.init [.parse 0 text, .destroy 0] = some (rs, s) ∧ (∀ x, s.var x = none) ∧
      ∃ live : List Nat, live.Nodup ∧ live.length = size t ∧ ∀ a, s.mem.cell a ≠ none ↔ a ∈ live := by
  have ha : AllAllowed env dec nothing [.parse 0 text, .destroy 0] := ⟨trivial, fun _ _ _ _ => ⟨trivial, fun _ _ _ _ => trivial⟩⟩
  obtain ⟨rs, s, v, foot, leak, n, h1, h2, h3, h4⟩ := run_rep Rep.init ha
  have hv : v = nothing ∧ n = size t := by
    cases h2 with
    | stop st hs =>
      simp only [Step, h, nothing] at st
      rw [st.1] at hs
      cases hs
    | cons st hs h2 =>
      simp only [Step, h, nothing] at st
      cases h2 with
      | stop st' hs' => rw [st'.1] at hs'; cases hs'
      | cons st' hs' h2 =>
        cases h2
        refine ⟨?_, by simp [leakOf, nothing, h]⟩
        rw [st'.2, st.2]
        funext x
        by_cases hx : x = 0 <;> simp [hx, nothing]
  obtain ⟨rfl, rfl⟩ := hv
  have hx : ∀ x, s.var x = none := fun x => (h3.none_iff x).2 rfl
  refine ⟨rs, s, h1, hx, leak, h3.nodup, by simpa using h4, fun a => ⟨fun ha => ?_, fun ha => (h3.leaked a ha).1⟩⟩
  rcases h3.all a ha with hl | ⟨x, hf⟩
  · exact hl
  · rw [(h3.unset x (hx x)).2] at hf
    simp at hf
theorem C75_example : (match Node.ofText fenv64 nodec "2*x^y".toList with | .ok t => size t | _ => 0) = 5 := by decide +kernel

/-! ### C76 -/

/-- assigning an operator node to another operator node shares the children: once one of the two variables is destroyed, the
other can be neither printed nor destroyed, whichever goes first. -/
theorem C76_assignment_shares {is : List Stmt} {rs : List (Res (List Char))} {s : State} {x y p q : Nat} {c c' : Char}
    {a b a' b' : Nat} (h : AllAllowed env dec nothing is) (hr : run env dec State.init is = some (rs, s)) (hxy : x ≠ y)
    (hx : s.var x = some p) (hy : s.var y = some q) (hp : s.mem.cell p = some (.op c a b))
    (hq : s.mem.cell q = some (.op c' a' b')) :
    run env dec s [.assign x y, .destroy y, .print x] = none ∧ run env dec s [.assign x y, .destroy y, .destroy x] = none ∧
      run env dec s [.assign x y, .destroy x, .destroy y] = none ∧ run env dec s [.assign x y, .destroy x, .print y] = none := by
  obtain ⟨rs', s', v, foot, leak, n, h1, -, R, -⟩ := run_rep Rep.init h
  rw [hr] at h1
  cases h1
  obtain ⟨t, ht, ho⟩ := R.own x p hx
  obtain ⟨u, hu, ho'⟩ := R.own y q hy
  cases t with
  | frac f => rw [ho.1] at hp; cases hp
  | op c₁ l r =>
  cases u with
  | frac f => rw [ho'.1] at hq; cases hq
  | op c₂ l' r' =>
  have su := ho'.size_le R.wf
  have oy := ho'
  obtain ⟨a₂, b₂, sa, sb, hq', o1, o2, hf, hd⟩ := ho'
  rw [hq] at hq'
  cases hq'
  have hpx := ho.head
  have hpy : p ∉ foot y := R.disj x y hxy p hpx
  have hqp : q ≠ p := by rintro rfl; exact hpy oy.head
  rw [hf] at hd
  obtain ⟨⟨hqa, hqb⟩, hab, hba⟩ := op_disjoint hd
  have haf : a' ∈ sa := o1.head
  have hay : a' ∈ foot y := by rw [hf]; simp [haf]
  have hap : a' ≠ p := by rintro rfl; exact hpy hay
  have haq : a' ≠ q := by rintro rfl; exact hqa haf
  have hpa : p ∉ sa := fun hm => hpy (by rw [hf]; simp [hm])
  have hpb : p ∉ sb := fun hm => hpy (by rw [hf]; simp [hm])
  -- after the assignment
  let m1 : Mem := ⟨s.mem.next, Function.update s.mem.cell p (some (.op c' a' b'))⟩
  have e1 : exec env dec s (.assign x y) = some (.ok [], ⟨s.var, m1⟩) := by
    simp only [exec, hy, onVar, hx]
    rw [bind_ok' (x := assign _ _ _) (m' := m1) (by
      rw [assign, bind_ok' (get_ok hq)]
      dsimp only
      rw [bind_ok' (get_ok hp)]
      exact set_ok hp)]
    rfl
  have fr : ∀ {t : Node} {k : Nat} {fs : List Nat}, Own s.mem t k fs → p ∉ fs → Own m1 t k fs := fun hO hn =>
    hO.frame fun z hz => Function.update_of_ne (by rintro rfl; exact hn hz) _ _
  have oy1 : Own m1 (.op c' l' r') q (foot y) := fr oy hpy
  have ox1 : Own m1 (.op c' l' r') p (p :: (sa ++ sb)) := by
    refine ⟨a', b', sa, sb, by simp [m1], fr o1 hpa, fr o2 hpb, rfl, ?_⟩
    rw [List.nodup_cons, List.mem_append, not_or]
    rw [List.nodup_cons] at hd
    exact ⟨⟨hpa, hpb⟩, hd.2⟩
  have n3 : 3 ≤ s.mem.next := by
    have : 1 ≤ size l' := by cases l' <;> simp [size]
    have : 1 ≤ size r' := by cases r' <;> simp [size]
    simp only [size] at su
    omega
  -- destroy y
  have e2 : exec env dec ⟨s.var, m1⟩ (.destroy y) = some (.ok [], ⟨Function.update s.var y none, m1.erase (foot y)⟩) := by
    simp only [exec, hy]
    rw [deleteNode_own oy1 (by show size _ ≤ s.mem.next + 1; simp only [size] at su ⊢; omega)]
  -- destroy x
  have e3 : exec env dec ⟨s.var, m1⟩ (.destroy x) = some (.ok [], ⟨Function.update s.var x none, m1.erase (p :: (sa ++ sb))⟩) := by
    simp only [exec, hx]
    rw [deleteNode_own ox1 (by show size _ ≤ s.mem.next + 1; simp only [size] at su ⊢; omega)]
  have del : ∀ (m : Mem) (k : Nat) (n : Nat), m.cell k = some (.op c' a' b') → m.cell a' = none → deleteNode (n + 2) k m = none := by
    intro m k n hk hn
    rw [deleteNode, bind_ok' (get_ok hk)]
    dsimp only
    refine bind_none' ?_
    rw [deleteNode]
    exact bind_none' (by simp [get, hn])
  have str : ∀ (m : Mem) (k : Nat) (n : Nat), m.cell k = some (.op c' a' b') → m.cell a' = none →
      toStr env.toEnv (n + 1) k m = none := by
    intro m k n hk hn
    rw [toStr, bind_ok' (get_ok hk)]
    dsimp only
    refine bind_none' ?_
    rw [withParenL]
    exact bind_none' (by simp [get, hn])
  have cp : (m1.erase (foot y)).cell p = some (.op c' a' b') := by simp [Mem.erase, m1, hpy]
  have cp' : (m1.erase (foot y)).cell a' = none := by simp [Mem.erase, hay]
  have cq : (m1.erase (p :: (sa ++ sb))).cell q = some (.op c' a' b') := by
    simp [Mem.erase, m1, hqp, hqa, hqb, hq]
  have cq' : (m1.erase (p :: (sa ++ sb))).cell a' = none := by simp [Mem.erase, haf]
  refine ⟨?_, ?_, ?_, ?_⟩
  · simp only [run, e1, Survives, if_true, e2]
    rw [show exec env dec ⟨Function.update s.var y none, m1.erase (foot y)⟩ (.print x) = none by
      simp only [exec, onVar, Function.update_of_ne hxy, hx]
      rw [str _ _ _ cp cp']]
  · simp only [run, e1, Survives, if_true, e2]
    rw [show exec env dec ⟨Function.update s.var y none, m1.erase (foot y)⟩ (.destroy x) = none by
      simp only [exec, Function.update_of_ne hxy, hx]
      rw [show (m1.erase (foot y)).next + 1 = (s.mem.next - 1) + 2 by show s.mem.next + 1 = _; omega, del _ _ _ cp cp']]
  · simp only [run, e1, Survives, if_true, e3]
    rw [show exec env dec ⟨Function.update s.var x none, m1.erase (p :: (sa ++ sb))⟩ (.destroy y) = none by
      simp only [exec, Function.update_of_ne hxy.symm, hy]
      rw [show (m1.erase (p :: (sa ++ sb))).next + 1 = (s.mem.next - 1) + 2 by show s.mem.next + 1 = _; omega, del _ _ _ cq cq']]
  · simp only [run, e1, Survives, if_true, e3]
    rw [show exec env dec ⟨Function.update s.var x none, m1.erase (p :: (sa ++ sb))⟩ (.print y) = none by
      simp only [exec, onVar, Function.update_of_ne hxy.symm, hy]
      rw [str _ _ _ cq cq']]

/-- what `func f(x) = …` does when both bodies are operator nodes (cli.hpp 158-171): the slot 0 holds the old body, `func` is
1, the tuple is 2. -/
theorem C76_example : run fenv64 nodec State.init [.parse 0 "x^y".toList, .parse 1 "2^x".toList, .copy 2 1, .assign 0 2,
    .destroy 2, .print 0] = none ∧
    (run fenv64 nodec State.init [.parse 0 "x^y".toList, .parse 1 "2^x".toList, .copy 2 1]).map Prod.fst =
      some [.ok [], .ok [], .ok []] := by
  constructor
  · have : (run fenv64 nodec State.init [.parse 0 "x^y".toList, .parse 1 "2^x".toList, .copy 2 1, .assign 0 2, .destroy 2,
      .print 0]).isNone = true := by decide +kernel
    exact Option.isNone_iff_eq_none.1 this
  · decide +kernel

end Symxx.Heap

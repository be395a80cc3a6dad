import Verif.Expr.Numeric
/-!
# Counting the evaluations of leaves

The functions of this file are those of the model (`Node.tryEvalLD`, `Node.tryEval`, `Node.normalize`) with a counter: every time a leaf of the
tree is evaluated or read (`frac().try_eval(v)`, expr.hpp 138; `frac()`, expr.hpp 101) one is added. The `_res` theorems say that without
the counter they are the functions of the model.
-/
namespace Symxx.Sym
open Symxx.Num

/-- a result and the number of leaf evaluations it took. -/
structure Cost (α : Type) where
  n : Nat
  res : Res α

namespace Cost
variable {α β : Type}

/-- nothing counted. -/
def free (r : Res α) : Cost α := ⟨0, r⟩

/-- one leaf. -/
def leaf (r : Res α) : Cost α := ⟨1, r⟩

/-- one after the other; what follows an exception is not run. -/
def andThen (x : Cost α) (f : α → Cost β) : Cost β :=
  ⟨x.n + (match x.res with | .ok a => (f a).n | _ => 0), x.res >>= fun a => (f a).res⟩

theorem andThen_res (x : Cost α) (f : α → Cost β) : (x.andThen f).res = x.res >>= fun a => (f a).res := rfl

theorem andThen_n {x : Cost α} {f : α → Cost β} {a : α} (h : x.res = .ok a) : (x.andThen f).n = x.n + (f a).n := by
  unfold andThen; rw [h]

theorem andThen_le {x : Cost α} {f : α → Cost β} {a b : Nat} (h : x.n ≤ a) (hf : ∀ v, (f v).n ≤ b) : (x.andThen f).n ≤ a + b := by
  unfold andThen
  cases x.res with
  | ok v => exact Nat.add_le_add h (hf v)
  | _ => exact le_trans h (Nat.le_add_right _ _)

theorem free_n (r : Res α) : (free r).n = 0 := rfl

end Cost

namespace Node

/-- the leaves of a tree. -/
def leaves : Node → Nat
  | .frac _ => 1
  | .op _ l r => leaves l + leaves r

/-- the operations on the longest way from the root to a leaf. -/
def depth : Node → Nat
  | .frac _ => 0
  | .op _ l r => max (depth l) (depth r) + 1

/-- the leaves, each counted twice for every operation above it. -/
def doubled : Node → Nat
  | .frac _ => 1
  | .op _ l r => 2 * (doubled l + doubled r)

theorem leaves_pos : ∀ n : Node, 1 ≤ n.leaves
  | .frac _ => le_rfl
  | .op _ l _ => le_trans (leaves_pos l) (Nat.le_add_right _ _)

section
variable (F : Flt)

/-- `ExprNode::try_eval(v)` (expr.hpp 134-166) with a counter. -/
def tryEvalLDCost (v : List (List Char × F.LD)) : Node → Cost (Option F.LD)
  | .frac f => .leaf (.ok (f.tryEvalLD F v))
  | .op c l r =>
    (tryEvalLDCost v l).andThen fun lv => (tryEvalLDCost v r).andThen fun rv =>
      (tryEvalLDCost v l).andThen fun lv' => (tryEvalLDCost v r).andThen fun rv' =>
        .free (match lv', rv' with
          | some _, some _ =>
            match lv, rv with
            | some a, some b => numOp F c a b
            | _, _ => .ub "*nullptr"
          | _, _ => .ok none)

theorem tryEvalLD_res (v : List (List Char × F.LD)) : ∀ n : Node, (tryEvalLDCost F v n).res = tryEvalLD F v n
  | .frac f => rfl
  | .op c l r => by
    unfold tryEvalLDCost tryEvalLD
    simp only [Cost.andThen_res, tryEvalLD_res v l, tryEvalLD_res v r]
    rfl

end

section
variable (env : FEnv)

/-- `try_eval()` (expr.hpp 98-132) with a counter. -/
def tryEvalCost : Node → Cost (Option Frac)
  | .frac f => .leaf (.ok (some f))
  | .op c l r =>
    (tryEvalCost l).andThen fun lv => (tryEvalCost r).andThen fun rv =>
      .free (match lv, rv with
        | some a, some b => evalOp env c a b
        | _, _ => .ok none)

theorem tryEval_res : ∀ n : Node, (tryEvalCost env n).res = tryEval env n
  | .frac f => rfl
  | .op c l r => by
    unfold tryEvalCost tryEval
    simp only [Cost.andThen_res, tryEval_res l, tryEval_res r]
    rfl

/-- `normalize()` (expr.hpp 168-215) with a counter; leaves that are only looked at count as well. -/
def normalizeCost : Node → Cost Node
  | .frac f => .leaf (.ok (.frac f))
  | .op c l r =>
    (tryEvalCost env l).andThen fun lv => (tryEvalCost env r).andThen fun rv =>
      match lv, rv with
      | some a, some b =>
        if c = '+' then .free (do
          let x ← Frac.add env a b
          .ok (.frac x))
        else if c = '-' then .free (do
          let x ← Frac.sub env a b
          .ok (.frac x))
        else if c = '*' then .free (do
          let x ← Frac.mul env a b
          .ok (.frac x))
        else if c = '/' then .free (do
          let x ← Frac.div env a b
          .ok (.frac x))
        else if c = '^' then
          (Cost.free (Frac.tryEval env b)).andThen fun power =>
          (Cost.free (match power with
            | none => .ok none
            | some p => do
              if ← Real.isRational env.toEnv p then do
                let q ← Real.toRational env.toEnv p
                .ok (some q)
              else .ok none : Res (Option Rational))).andThen fun q =>
          match q with
          | none => (normalizeCost l).andThen fun l => (normalizeCost r).andThen fun r => .free (.ok (.op c l r))
          | some q => .free (do
            let x ← Frac.pow env a q
            .ok (.frac x))
        else .free (.throw unreachable)
      | _, _ => (normalizeCost r).andThen fun r => (normalizeCost l).andThen fun l => .free (.ok (.op c l r))

theorem normalize_res : ∀ n : Node, (normalizeCost env n).res = normalize env n
  | .frac f => rfl
  | .op c l r => by
    unfold normalizeCost normalize
    simp only [Cost.andThen_res, tryEval_res]
    congr 1
    funext lv
    congr 1
    funext rv
    have hl := normalize_res l
    have hr := normalize_res r
    cases lv with
    | none => simp only [Cost.andThen_res, hl, hr, Cost.free]
    | some a =>
      cases rv with
      | none => simp only [Cost.andThen_res, hl, hr, Cost.free]
      | some b =>
        simp only
        split_ifs <;> try rfl
        simp only [Cost.andThen_res, Cost.free]
        congr 1
        funext power
        congr 1
        funext q
        cases q with
        | none => simp only [Cost.andThen_res, hl, hr]
        | some q => rfl

theorem tryEvalCost_le : ∀ n : Node, (tryEvalCost env n).n ≤ n.leaves
  | .frac f => le_rfl
  | .op c l r => by
    unfold tryEvalCost leaves
    refine Cost.andThen_le (tryEvalCost_le l) fun _ => ?_
    rw [← add_zero r.leaves]
    exact Cost.andThen_le (tryEvalCost_le r) fun _ => le_rfl

theorem normalizeCost_le : ∀ n : Node, (normalizeCost env n).n ≤ n.leaves * (n.depth + 1)
  | .frac f => le_rfl
  | .op c l r => by
    have hl := normalizeCost_le l
    have hr := normalizeCost_le r
    have l1 := tryEvalCost_le env l
    have r1 := tryEvalCost_le env r
    have key : (normalizeCost env (.op c l r)).n ≤
        l.leaves + (r.leaves + (l.leaves * (l.depth + 1) + r.leaves * (r.depth + 1))) := by
      unfold normalizeCost
      refine Cost.andThen_le l1 fun lv => Cost.andThen_le r1 fun rv => ?_
      have A : ∀ c', ((normalizeCost env r).andThen fun r => (normalizeCost env l).andThen fun l => Cost.free (.ok (Node.op c' l r))).n ≤
          l.leaves * (l.depth + 1) + r.leaves * (r.depth + 1) := fun c' => by
        rw [add_comm]
        exact Cost.andThen_le hr fun _ => by
          rw [← add_zero (l.leaves * _)]
          exact Cost.andThen_le hl fun _ => le_rfl
      have A' : ∀ c', ((normalizeCost env l).andThen fun l => (normalizeCost env r).andThen fun r => Cost.free (.ok (Node.op c' l r))).n ≤
          l.leaves * (l.depth + 1) + r.leaves * (r.depth + 1) := fun c' =>
        Cost.andThen_le hl fun _ => by
          rw [← add_zero (r.leaves * _)]
          exact Cost.andThen_le hr fun _ => le_rfl
      cases lv with
      | none => exact A c
      | some a =>
        cases rv with
        | none => exact A c
        | some b =>
          simp only
          split_ifs <;> try exact Nat.zero_le _
          rw [← zero_add (l.leaves * _ + _)]
          refine Cost.andThen_le (le_of_eq (Cost.free_n _)) fun power => ?_
          rw [← zero_add (l.leaves * _ + _)]
          refine Cost.andThen_le (le_of_eq (Cost.free_n _)) fun q => ?_
          cases q with
          | none => exact A' c
          | some q => exact Nat.zero_le _
    refine le_trans key ?_
    show _ ≤ (l.leaves + r.leaves) * (max l.depth r.depth + 1 + 1)
    have h1 : l.leaves * (l.depth + 1) ≤ l.leaves * (max l.depth r.depth + 1) := Nat.mul_le_mul_left _ (by omega)
    have h2 : r.leaves * (r.depth + 1) ≤ r.leaves * (max l.depth r.depth + 1) := Nat.mul_le_mul_left _ (by omega)
    generalize max l.depth r.depth + 1 = m at h1 h2 ⊢
    nlinarith
end

/-- only the five operators. -/
def KnownOps : Node → Prop
  | .frac _ => True
  | .op c l r => c ∈ ['+', '-', '*', '/', '^'] ∧ KnownOps l ∧ KnownOps r

section
variable (F : Flt)

theorem tryEvalLDCost_eq (v : List (List Char × F.LD)) : ∀ {n : Node}, n.KnownOps →
    (tryEvalLDCost F v n).n = n.doubled ∧ ∃ x, (tryEvalLDCost F v n).res = .ok x
  | .frac f, _ => ⟨rfl, _, rfl⟩
  | .op c l r, ⟨hc, kl, kr⟩ => by
    obtain ⟨l1, x, hx⟩ := tryEvalLDCost_eq v kl
    obtain ⟨r1, y, hy⟩ := tryEvalLDCost_eq v kr
    unfold tryEvalLDCost doubled
    constructor
    · rw [Cost.andThen_n hx, Cost.andThen_n hy, Cost.andThen_n hx, Cost.andThen_n hy, l1, r1, Cost.free_n]
      ring
    · simp only [Cost.andThen_res, hx, hy, Res.bind_ok, Cost.free]
      cases x with
      | none => exact ⟨_, rfl⟩
      | some a =>
        cases y with
        | none => exact ⟨_, rfl⟩
        | some b =>
          simp only [List.mem_cons, List.not_mem_nil, or_false] at hc
          rcases hc with rfl | rfl | rfl | rfl | rfl <;> exact ⟨_, rfl⟩

end

theorem doubled_le : ∀ n : Node, n.doubled ≤ n.leaves * 2 ^ n.depth
  | .frac _ => le_rfl
  | .op _ l r => by
    have hl := doubled_le l
    have hr := doubled_le r
    show 2 * (l.doubled + r.doubled) ≤ (l.leaves + r.leaves) * 2 ^ (max l.depth r.depth + 1)
    have h1 : l.leaves * 2 ^ l.depth ≤ l.leaves * 2 ^ max l.depth r.depth :=
      Nat.mul_le_mul_left _ (Nat.pow_le_pow_right (by norm_num) (le_max_left _ _))
    have h2 : r.leaves * 2 ^ r.depth ≤ r.leaves * 2 ^ max l.depth r.depth :=
      Nat.mul_le_mul_left _ (Nat.pow_le_pow_right (by norm_num) (le_max_right _ _))
    rw [pow_succ]
    nlinarith

theorem le_doubled : ∀ n : Node, n.leaves + 2 ^ n.depth ≤ n.doubled + 1
  | .frac _ => le_rfl
  | .op _ l r => by
    have hl := le_doubled l
    have hr := le_doubled r
    have ll := leaves_pos l
    have lr := leaves_pos r
    show l.leaves + r.leaves + 2 ^ (max l.depth r.depth + 1) ≤ 2 * (l.doubled + r.doubled) + 1
    have p1 := Nat.one_le_two_pow (n := l.depth)
    have p2 := Nat.one_le_two_pow (n := r.depth)
    rw [pow_succ]
    rcases max_cases l.depth r.depth with ⟨h, -⟩ | ⟨h, -⟩ <;> rw [h] <;> omega

end Node
end Symxx.Sym

import Verif.Expr.PolyId
import Verif.Frac.ConstFrac
/-!
# Expressions over integers: their value is computed; polynomials at integers
-/
namespace Symxx.Sym
open Symxx.Num

theorem exprSem_intVal (κ : List Char → Int) {e : Parser.Expr} (he : IntRing e) :
    exprSem (fun x => (κ x : ℝ)) e = some ((intVal κ e : Int) : ℝ) := by
  induction e with
  | leaf l =>
    cases l with
    | num q =>
      have hq : q.den = 1 := he
      simp [exprSem, intVal, Rational.val, hq]
    | sym x => simp [exprSem, intVal]
  | node c a b ia ib =>
    rcases he with ⟨hc, ha, hb⟩ | ⟨rfl, ha, k, rfl⟩
    · rcases hc with rfl | rfl | rfl
      · rw [exprSem, ia ha, ib hb]; simp [opSem, intVal]
      · rw [exprSem, ia ha, ib hb]; simp [opSem, intVal]
      · rw [exprSem, ia ha, ib hb]; simp [opSem, intVal]
    · have hy : exprSem (fun x => (κ x : ℝ)) (.leaf (.num ⟨(k : Int), 1⟩)) = some (k : ℝ) := by simp [exprSem, Rational.val]
      rw [exprSem, ia ha, hy, Option.bind_some, Option.bind_some, opSem_nat]
      simp [intVal, expo]

theorem intVal_le (κ : List Char → Int) {e : Parser.Expr} (he : IntRing e) (hn : ∀ x, .sym x ∉ e.leaves) :
    |intVal κ e| ≤ ringSize e := by
  induction e with
  | leaf l =>
    cases l with
    | num q => exact le_max_right _ _
    | sym x => exact absurd (by simp [Parser.Expr.leaves]) (hn x)
  | node c a b ia ib =>
    have na : ∀ x, .sym x ∉ a.leaves := fun x hx => hn x (by simp [Parser.Expr.leaves, hx])
    have nb : ∀ x, .sym x ∉ b.leaves := fun x hx => hn x (by simp [Parser.Expr.leaves, hx])
    rcases he with ⟨hc, ha, hb⟩ | ⟨rfl, ha, k, rfl⟩
    · have h1 := ia ha na
      have h2 := ib hb nb
      rcases hc with rfl | rfl | rfl
      · simp only [intVal, ringSize, if_true, if_neg (by decide : ¬ '+' = '*'), if_neg (by decide : ¬ '+' = '^')]
        exact le_trans (abs_add_le _ _) (by omega)
      · simp only [intVal, ringSize, if_true, if_neg (by decide : ¬ '-' = '+'), if_neg (by decide : ¬ '-' = '*'),
          if_neg (by decide : ¬ '-' = '^')]
        exact le_trans (abs_sub _ _) (by omega)
      · simp only [intVal, ringSize, if_true, if_neg (by decide : ¬ '*' = '+'), if_neg (by decide : ¬ '*' = '-')]
        rw [abs_mul]
        exact mul_le_mul h1 h2 (abs_nonneg _) (le_trans (abs_nonneg _) h1)
    · simp only [intVal, ringSize, if_true, if_neg (by decide : ¬ '^' = '+'), if_neg (by decide : ¬ '^' = '-'),
        if_neg (by decide : ¬ '^' = '*')]
      rw [abs_pow]
      exact pow_le_pow_left₀ (abs_nonneg _) (ia ha na) _

variable {env : FEnv}

namespace Node
section
variable (h : env.toEnv.PowOk) (hs : SortOk env.sort) (ht : Poly.SortTotal env)
include h hs ht

/-- an expression over integers without symbols evaluates to its value. -/
theorem const_eval (κ : List Char → Int) {e : Parser.Expr} (he : IntRing e) (hn : ∀ x, .sym x ∉ e.leaves)
    (hsz : ringSize e ≤ env.M) (hpf : PowFits e) :
    ∃ n, ofExpr env e = .ok n ∧ tryEval env n = .ok (some (Frac.con (intVal κ e))) ∧
      normalize env n = .ok (.frac (Frac.con (intVal κ e))) := by
  have h' := h.toIntOk
  have hM53 := h.hM53
  induction e with
  | leaf l =>
    cases l with
    | num q =>
      obtain ⟨n, d⟩ := q
      have hd : d = 1 := he
      subst hd
      refine ⟨.frac (Frac.con n), ?_, rfl, rfl⟩
      unfold ofExpr
      rw [ofLeaf_const h hs ht (le_trans (le_max_right _ _) hsz)]
      rfl
    | sym x => exact absurd (by simp [Parser.Expr.leaves]) (hn x)
  | node c a b ia ib =>
    have na : ∀ x, .sym x ∉ a.leaves := fun x hx => hn x (by simp [Parser.Expr.leaves, hx])
    have nb : ∀ x, .sym x ∉ b.leaves := fun x hx => hn x (by simp [Parser.Expr.leaves, hx])
    have pa := ringSize_pos a
    have pb := ringSize_pos b
    obtain ⟨pfa, pfb, pf⟩ := hpf
    rcases he with ⟨hc, ha, hb⟩ | ⟨rfl, ha, k, rfl⟩
    · have va := intVal_le κ ha na
      have vb := intVal_le κ hb nb
      by_cases hm : c = '*'
      · subst hm
        have z1 : ringSize (.node '*' a b) = ringSize a * ringSize b := if_pos rfl
        have z2 : intVal κ (.node '*' a b) = intVal κ a * intVal κ b := by
          simp [intVal]
        rw [z1] at hsz
        obtain ⟨x, x1, x2, x3⟩ := ia ha na (by nlinarith) pfa
        obtain ⟨y, y1, y2, y3⟩ := ib hb nb (by nlinarith) pfb
        have e := Frac.mul_con h hs ht (j := intVal κ a) (k := intVal κ b) (by nlinarith) (by nlinarith) (by
          rw [abs_mul]; exact le_trans (mul_le_mul va vb (abs_nonneg _) (by omega)) hsz)
        rw [z2]
        refine ⟨.op '*' x y, ?_, ?_, ?_⟩
        · unfold ofExpr; rw [x1, Res.bind_ok, y1, Res.bind_ok]
        · unfold tryEval; rw [x2, Res.bind_ok, y2, Res.bind_ok]
          show evalOp env '*' _ _ = _
          unfold evalOp
          rw [if_neg (by decide), if_neg (by decide), if_pos rfl, e, Res.bind_ok]
        · unfold normalize; rw [x2, Res.bind_ok, y2, Res.bind_ok]
          simp only
          rw [if_neg (by decide), if_neg (by decide), if_pos trivial, e, Res.bind_ok]
      · have hc' : c ≠ '^' := by rcases hc with rfl | rfl | rfl <;> decide
        have z1 : ringSize (.node c a b) = ringSize a + ringSize b := by
          simp only [ringSize, if_neg hm, if_neg hc']
        rw [z1] at hsz
        obtain ⟨x, x1, x2, x3⟩ := ia ha na (by omega) pfa
        obtain ⟨y, y1, y2, y3⟩ := ib hb nb (by omega) pfb
        rcases hc with rfl | rfl | rfl
        · have e := Frac.add_con h hs ht (j := intVal κ a) (k := intVal κ b) (by omega)
          have z2 : intVal κ (.node '+' a b) = intVal κ a + intVal κ b := by simp [intVal]
          rw [z2]
          refine ⟨.op '+' x y, ?_, ?_, ?_⟩
          · unfold ofExpr; rw [x1, Res.bind_ok, y1, Res.bind_ok]
          · unfold tryEval; rw [x2, Res.bind_ok, y2, Res.bind_ok]
            show evalOp env '+' _ _ = _
            unfold evalOp
            rw [if_pos rfl, e, Res.bind_ok]
          · unfold normalize; rw [x2, Res.bind_ok, y2, Res.bind_ok]
            simp only
            rw [if_pos trivial, e, Res.bind_ok]
        · have e := Frac.sub_con h hs ht (j := intVal κ a) (k := intVal κ b) (by omega)
          have z2 : intVal κ (.node '-' a b) = intVal κ a - intVal κ b := by simp [intVal]
          rw [z2]
          refine ⟨.op '-' x y, ?_, ?_, ?_⟩
          · unfold ofExpr; rw [x1, Res.bind_ok, y1, Res.bind_ok]
          · unfold tryEval; rw [x2, Res.bind_ok, y2, Res.bind_ok]
            show evalOp env '-' _ _ = _
            unfold evalOp
            rw [if_neg (by decide), if_pos rfl, e, Res.bind_ok]
          · unfold normalize; rw [x2, Res.bind_ok, y2, Res.bind_ok]
            simp only
            rw [if_neg (by decide), if_pos trivial, e, Res.bind_ok]
        · exact absurd rfl hm
    · have va := intVal_le κ ha na
      have ek : expo (.leaf (.num ⟨(k : Int), 1⟩)) = k := by simp [expo]
      obtain ⟨p1, p0, p2, p3⟩ := pf rfl
      rw [ek] at p1 p2 p3
      have z2 : intVal κ (.node '^' a (.leaf (.num ⟨(k : Int), 1⟩))) = intVal κ a ^ k := by
        simp [intVal, expo]
      rw [z2]
      obtain ⟨x, x1, x2, x3⟩ := ia ha na (by omega) pfa
      have e := Frac.pow_con h hs ht (k := intVal κ a) (n := k) (by omega) p1 (by
        rw [abs_pow]; exact le_trans (pow_le_pow_left₀ (abs_nonneg _) va _) p2)
      have hkM : (k : Int) ≤ env.M := by omega
      obtain ⟨t1, t2⟩ := pow_top h hkM x2 rfl e
      refine ⟨_, ?_, t1, t2⟩
      unfold ofExpr
      rw [x1, Res.bind_ok]
      unfold ofExpr
      rw [ofLeaf_const h hs ht (by rw [abs_of_nonneg (by positivity)]; exact hkM)]
      rfl

end

/-! ### printing an integer -/

section
variable (h : env.toEnv.IntOk)
include h

theorem coeIs_con {k j : Int} (hk : |k| ≤ env.M) (hj : |j| ≤ env.M) :
    Term.coeIs env.toEnv (Term.con k).coe j = .ok (decide (k = j)) := by
  unfold Term.coeIs
  rw [Real.ofInt_int h hj, Res.bind_ok]
  exact Real.eq_int h hk hj

theorem toStr_con {k : Int} (hk : |k| ≤ env.M) : toStr env.toEnv (.frac (Frac.con k)) = .ok (toString k).toList := by
  have h0 := Real.abs0 h
  have h1 := Real.abs1 h
  have hM := h.hM
  unfold toStr Frac.toStr Frac.con
  simp only [List.isEmpty_cons, Bool.false_eq_true, if_false]
  have e1 : Frac.denIsOne env.toEnv unitPoly = .ok true := by
    unfold unitPoly Frac.denIsOne
    have := coeIs_con h h1 h1
    unfold Term.con at this
    simp only
    rw [this, Res.bind_ok]
    rfl
  rw [e1, Res.bind_ok, if_pos rfl]
  unfold Poly.toStr
  simp only [List.isEmpty_cons, Bool.false_eq_true, if_false]
  have e2 : Poly.nonzeros env.toEnv [Term.con k] = .ok (if k = 0 then 0 else 1) := by
    unfold Poly.nonzeros
    rw [coeIs_con h hk h0, Res.bind_ok]
    unfold Poly.nonzeros
    rw [Res.bind_ok]
    by_cases hz : k = 0 <;> simp [hz]
  rw [e2, Res.bind_ok]
  by_cases hz : k = 0
  · subst hz
    rw [if_pos rfl, if_pos rfl]
    rfl
  · rw [if_neg hz, if_neg one_ne_zero]
    have e3 : Term.toStr env.toEnv (Term.con k) = .ok (toString k).toList := by
      unfold Term.toStr
      rw [coeIs_con h hk h0, Res.bind_ok, decide_eq_false hz, if_neg (by simp), coeIs_con h hk h1, Res.bind_ok]
      have e4 : (Term.con k).syms = [] := rfl
      have e5 : Num.Real.toStr env.toEnv (Term.con k).coe = .ok (toString k).toList := by
        unfold Num.Real.toStr
        have : (Term.con k).coe.coe = ⟨k, 1⟩ := rfl
        rw [this, Rational.eqInt_int hM hk h0, Res.bind_ok, decide_eq_false hz, if_neg (by simp)]
        have : Real.isRational env.toEnv (Term.con k).coe = .ok true := Frac.isRational_int h hk
        rw [this, Res.bind_ok, if_pos rfl]
        unfold Rational.toStr
        rw [if_neg (by simp)]
      have e6 : |(-1 : Int)| ≤ env.M := by rw [abs_neg]; exact h1
      rw [e4, coeIs_con h hk e6]
      simp only [List.isEmpty_nil, Bool.or_true, if_true, Res.bind_ok, Bool.not_true, Bool.and_false, Bool.false_eq_true,
        if_false]
      rw [e5, Res.bind_ok]
      unfold Term.symsStr
      rw [Res.bind_ok, List.append_nil]
    unfold Poly.strLoop
    rw [coeIs_con h hk h0, Res.bind_ok, decide_eq_false hz, if_neg (by simp), if_pos rfl, e3, Res.bind_ok]
    unfold Poly.strLoop
    rw [Res.bind_ok, List.append_nil]

end
end Node

/-! ### a polynomial at integers -/

/-- the value of a product of powers at integers. -/
def Syms.at (κ : List Char → Int) (s : Syms) : Int := (s.map fun p => κ p.1 ^ p.2.num.toNat).prod
/-- the value of a polynomial at integers. -/
def Poly.at (κ : List Char → Int) (p : Poly) : Int := (p.map fun t => t.coe.coe.num * t.syms.at κ).sum

theorem Syms.at_value (κ : List Char → Int) {s : Syms} (hs : ∀ p ∈ s, NatExp p) :
    Syms.value (fun x => (κ x : ℝ)) s = ((s.at κ : Int) : ℝ) := by
  induction s with
  | nil => simp [Syms.value, Syms.at]
  | cons q s ih =>
    obtain ⟨h1, h2⟩ := hs q List.mem_cons_self
    obtain ⟨n, hn⟩ := Int.eq_ofNat_of_zero_le h1
    have ih := ih fun r hr => hs r (List.mem_cons_of_mem _ hr)
    have e : ((q.2.val : ℚ) : ℝ) = (n : ℝ) := by simp [Rational.val, h2, hn]
    have : Syms.value (fun x => (κ x : ℝ)) (q :: s) = (κ q.1 : ℝ) ^ ((q.2.val : ℚ) : ℝ) * Syms.value (fun x => (κ x : ℝ)) s := by
      simp [Syms.value]
    rw [this, ih, e, Real.rpow_natCast]
    simp [Syms.at, hn]

theorem Poly.at_value (κ : List Char → Int) {D : Int} {p : Poly} (hi : p.IntLe D) (hs : ∀ t ∈ p, ∀ q ∈ t.syms, NatExp q) :
    Poly.value (fun x => (κ x : ℝ)) p = ((p.at κ : Int) : ℝ) := by
  induction p with
  | nil => simp [Poly.value, Poly.at]
  | cons t p ih =>
    have ih := ih (Poly.intLe_cons.1 hi).2 fun r hr => hs r (List.mem_cons_of_mem _ hr)
    have e1 := Syms.at_value κ (hs t List.mem_cons_self)
    have e2 : t.coe.val = (t.coe.coe.num : ℝ) := by
      rw [(Poly.intLe_cons.1 hi).1.1]
      simp [Num.Real.val, Num.Real.int, Rational.val]
    have : Poly.value (fun x => (κ x : ℝ)) (t :: p) =
        t.coe.val * t.syms.value (fun x => (κ x : ℝ)) + Poly.value (fun x => (κ x : ℝ)) p := by
      simp [Poly.value, Term.value]
    rw [this, ih, e1, e2]
    simp [Poly.at]

/-- a ring expression and its expanded polynomial have the same value at integers. -/
theorem intVal_at (κ : List Char → Int) {e : Parser.Expr} (he : IntRing e) {D : Int} {f : Frac} (hf : f.In NatExp)
    (hi : f.IntPoly D) (h : ∀ ρ, (∀ x, 0 < ρ x) → exprSem ρ e = some (Frac.value ρ f)) : f.num.at κ = intVal κ e := by
  have h1 := exprSem_everywhere he hf hi.den h fun x => (κ x : ℝ)
  rw [exprSem_intVal κ he] at h1
  have h1 := Option.some.inj h1
  unfold Frac.value at h1
  rw [hi.den, unitPoly_value, div_one, Poly.at_value κ hi.num hf.1] at h1
  exact_mod_cast h1.symm

end Symxx.Sym

import Verif.Expr.Sound
import Verif.Frac.IntFracPow
import Verif.Expr.NatPow
/-!
# Expressions: leaves, trees without powers, trees that always evaluate
-/
namespace Symxx.Sym
open Symxx.Num
variable {env : FEnv} {B : Nat}

namespace Node

/-! ### leaves -/

theorem sem_of_same {n : (List Char → ℝ) → ℝ} {f : Frac} (h : Frac.Same n (fun _ => 1) f) {ρ : List Char → ℝ}
    (hρ : ∀ x, 0 < ρ x) : (Node.frac f).sem ρ = some (n ρ) := by
  obtain ⟨e1, e2, -⟩ := h.frac hρ
  exact sem_frac.2 ⟨fun h => one_ne_zero (e2.1 h), by rw [e1, div_one]⟩

theorem ofLeaf_sem (hg : env.toEnv.Base B) (hs : SortOk env.sort) {l : Parser.Leaf} {f : Frac}
    (hl : ∀ q, l = .num q → q.den ≠ 0) (h : ofLeaf (env.checked B) l = .ok f) :
    f.WF ∧ ∀ ρ, (∀ x, 0 < ρ x) → (Node.frac f).sem ρ = exprSem ρ (.leaf l) := by
  cases l with
  | num q =>
    unfold ofLeaf at h
    obtain ⟨r, h1, h⟩ := Res.bind_eq_ok.1 h
    have hq := hl q rfl
    obtain ⟨r1, r2⟩ := Real.ofRational_sound hg hq h1
    have s := Frac.ofReal_sound hg hs r1.valid h
    refine ⟨s.wf, fun ρ hρ => ?_⟩
    rw [sem_of_same s hρ]
    unfold exprSem
    rw [if_neg hq, r2]
  | sym x =>
    unfold ofLeaf at h
    obtain ⟨o, h1, h⟩ := Res.bind_eq_ok.1 h
    obtain ⟨t, h2, h⟩ := Res.bind_eq_ok.1 h
    obtain ⟨o1, o2⟩ := Real.ofInt_sound hg h1
    have t := fun ρ => Term.ofSym_sound (ρ := ρ) o1.valid h2
    have s := Frac.ofTerm_sound hg hs (t fun _ => 1).1 h
    refine ⟨s.wf, fun ρ hρ => ?_⟩
    rw [sem_of_same s hρ]
    unfold exprSem
    rw [(t ρ).2, o2]
    simp

/-- numbers of the expression have non-zero denominators. -/
def _root_.Symxx.Parser.Expr.DenOk : Parser.Expr → Prop
  | .leaf (.num q) => q.den ≠ 0
  | .leaf (.sym _) => True
  | .node _ a b => a.DenOk ∧ b.DenOk

theorem ofExpr_sem (hg : env.toEnv.Base B) (hs : SortOk env.sort) {e : Parser.Expr} {n : Node} (he : e.DenOk)
    (h : ofExpr (env.checked B) e = .ok n) :
    n.WF ∧ ∀ ρ, (∀ x, 0 < ρ x) → n.sem ρ = exprSem ρ e := by
  induction e generalizing n with
  | leaf l =>
    unfold ofExpr at h
    obtain ⟨f, h1, h⟩ := Res.bind_eq_ok.1 h
    injection h with h
    subst h
    exact ofLeaf_sem hg hs (by rintro q rfl; exact he) h1
  | node c a b ia ib =>
    unfold ofExpr at h
    obtain ⟨x, h1, h⟩ := Res.bind_eq_ok.1 h
    obtain ⟨y, h2, h⟩ := Res.bind_eq_ok.1 h
    injection h with h
    subst h
    obtain ⟨a1, a2⟩ := ia he.1 h1
    obtain ⟨b1, b2⟩ := ib he.2 h2
    refine ⟨⟨a1, b1⟩, fun ρ hρ => ?_⟩
    show ((Node.sem ρ x).bind fun u => (Node.sem ρ y).bind fun v => opSem c u v) = _
    rw [a2 ρ hρ, b2 ρ hρ]
    rfl

theorem ofLeaf_mono {f f' : FEnv} (h : FEnv.Le f f') (l : Parser.Leaf) : Res.Le (ofLeaf f l) (ofLeaf f' l) := by
  have h1 := Real.ofRational_mono h.toEnv
  have h2 := Frac.ofReal_mono h
  have h3 := Real.ofInt_mono h.toEnv
  have h4 := Frac.ofTerm_mono h
  cases l with
  | num q => unfold ofLeaf; res_mono
  | sym x =>
    unfold ofLeaf Term.ofSym
    rw [h.toEnv.M]
    res_mono

theorem ofExpr_mono {f f' : FEnv} (h : FEnv.Le f f') (e : Parser.Expr) : Res.Le (ofExpr f e) (ofExpr f' e) := by
  have h1 := ofLeaf_mono h
  induction e with
  | leaf l => unfold ofExpr; res_mono
  | node c a b ia ib => unfold ofExpr; res_mono

/-! ### no powers: a single fraction -/

theorem evalOp_noPow {e : FEnv} {c : Char} {a b : Frac} (hc : c ≠ '^') : evalOp e c a b ≠ .ok none := by
  unfold evalOp
  intro h
  split at h
  · obtain ⟨x, -, h⟩ := Res.bind_eq_ok.1 h; simp at h
  · split at h
    · obtain ⟨x, -, h⟩ := Res.bind_eq_ok.1 h; simp at h
    · split at h
      · obtain ⟨x, -, h⟩ := Res.bind_eq_ok.1 h; simp at h
      · split at h
        · obtain ⟨x, -, h⟩ := Res.bind_eq_ok.1 h; simp at h
        · cases h

theorem tryEval_noPow {e : FEnv} {n : Node} (hn : n.NoPow) : tryEval e n ≠ .ok none := by
  induction n with
  | frac f => simp [tryEval]
  | op c l r il ir =>
    intro h
    unfold tryEval at h
    obtain ⟨x, h1, h⟩ := Res.bind_eq_ok.1 h
    obtain ⟨y, h2, h⟩ := Res.bind_eq_ok.1 h
    cases x with
    | none => exact il hn.2.1 h1
    | some x =>
      cases y with
      | none => exact ir hn.2.2 h2
      | some y => exact evalOp_noPow hn.1 h

/-- `normalize` of an operator node whose children evaluate, for the operators other than `^`: it is `try_eval`. -/
theorem normalize_noPow {e : FEnv} {n : Node} (hn : n.NoPow) :
    normalize e n = (tryEval e n).bind fun o => match o with | some f => .ok (.frac f) | none => .throw "" := by
  cases n with
  | frac f => rfl
  | op c l r =>
    rw [normalize.eq_2, tryEval.eq_2]
    cases hl : tryEval e l with
    | ok x =>
      cases x with
      | none => exact absurd hl (tryEval_noPow hn.2.1)
      | some x =>
        cases hr : tryEval e r with
        | ok y =>
          cases y with
          | none => exact absurd hr (tryEval_noPow hn.2.2)
          | some y =>
            simp only [Res.bind_ok]
            unfold evalOp
            by_cases h1 : c = '+'
            · simp only [if_pos h1]
              cases Frac.add e x y <;> rfl
            · simp only [if_neg h1]
              by_cases h2 : c = '-'
              · simp only [if_pos h2]
                cases Frac.sub e x y <;> rfl
              · simp only [if_neg h2]
                by_cases h3 : c = '*'
                · simp only [if_pos h3]
                  cases Frac.mul e x y <;> rfl
                · simp only [if_neg h3]
                  by_cases h4 : c = '/'
                  · simp only [if_pos h4]
                    cases Frac.div e x y <;> rfl
                  · simp only [if_neg h4, if_neg hn.1]
                    rfl
        | throw m => rfl
        | exn m => rfl
        | ub w => rfl
        | fuel => rfl
    | throw m => rfl
    | exn m => rfl
    | ub w => rfl
    | fuel => rfl

/-! ### integer polynomials -/

theorem ringSize_pos (e : Parser.Expr) : 1 ≤ ringSize e := by
  induction e with
  | leaf l => cases l <;> simp [ringSize]
  | node c a b ia ib =>
    unfold ringSize
    split
    · nlinarith
    · split
      · exact one_le_pow₀ ia
      · omega

theorem ringDeg_nonneg (e : Parser.Expr) : 0 ≤ ringDeg e := by
  induction e with
  | leaf l => cases l <;> simp [ringDeg]
  | node c a b ia ib =>
    unfold ringDeg
    split
    · omega
    · split
      · exact mul_nonneg ia (le_trans zero_le_one (le_max_left _ _))
      · omega

section
variable (h : env.toEnv.IntOk) (hs : SortOk env.sort) (ht : Poly.SortTotal env)
include h hs ht

theorem ofTerm_int {D : Int} (hD0 : 0 ≤ D) (hD : D ≤ env.M) {t : Term} (hi : t.IntLe D) (hk : |t.coe.coe.num| ≤ env.M) :
    ∃ f, Frac.ofTerm env t = .ok f ∧ f.IntPoly D ∧ f.num.l1 ≤ |t.coe.coe.num| := by
  have hp : Poly.IntLe D [t] := Poly.intLe_cons.2 ⟨hi, Poly.intLe_nil D⟩
  have l : Poly.l1 [t] = |t.coe.coe.num| := by simp [Poly.l1]
  obtain ⟨m, m1, m2, m3⟩ := Poly.normalize_int h hs ht hD hp (by rw [l]; exact hk)
  have mne := Poly.normalize_ne hs m1 (by simp)
  obtain ⟨r, r1, r2, r3⟩ := Frac.ofPoly_int h hs ht hD0 hD m2 (by omega) mne
  refine ⟨r, ?_, r2, by omega⟩
  unfold Frac.ofTerm Poly.mk'
  rw [m1, Res.bind_ok, r1]

theorem ofLeaf_int {l : Parser.Leaf} (hl : IntRing (.leaf l)) (hsz : ringSize (.leaf l) ≤ env.M) :
    ∃ f, ofLeaf env l = .ok f ∧ f.IntPoly (ringDeg (.leaf l)) ∧ f.num.l1 ≤ ringSize (.leaf l) := by
  have hM := h.hM
  cases l with
  | num q =>
    obtain ⟨n, d⟩ := q
    have hd : d = 1 := hl
    subst hd
    simp only [ringSize] at hsz
    have hn : |n| ≤ env.M := le_trans (le_max_right _ _) hsz
    have e1 : Real.ofRational env.toEnv ⟨n, 1⟩ = .ok (Real.int n) := by
      unfold Real.ofRational Real.mk3
      rw [Rational.ofInt_eq _ _ (Real.abs1 h) h.hM, Res.bind_ok]
      exact Real.normalize_int' h hn
    obtain ⟨f, f1, f2, f3⟩ := ofTerm_int h hs ht (D := 0) le_rfl (by omega) (Term.intLe_ofInt 0 n) hn
    refine ⟨f, ?_, f2, le_trans f3 (le_max_right _ _)⟩
    simp only [ofLeaf]
    rw [e1, Res.bind_ok]
    exact f1
  | sym x =>
    have hi : Term.IntLe 1 ⟨Real.int 1, [(x, ⟨1, 1⟩)]⟩ :=
      ⟨rfl, by intro p hp; rw [List.mem_singleton] at hp; subst hp; simp, by simp [Syms.WF]⟩
    obtain ⟨f, f1, f2, f3⟩ := ofTerm_int h hs ht (D := 1) (by norm_num) hM hi (Real.abs1 h)
    refine ⟨f, ?_, f2, f3⟩
    simp only [ofLeaf, Term.ofSym]
    rw [Real.ofInt_int h (Real.abs1 h), Res.bind_ok, Rational.ofInt_eq _ _ (Real.abs1 h) h.hM, Res.bind_ok, Res.bind_ok]
    exact f1

end

section
variable (h : env.toEnv.PowOk) (hs : SortOk env.sort) (ht : Poly.SortTotal env)
include h hs ht

theorem ofLeaf_const {k : Int} (hk : |k| ≤ env.M) :
    ofLeaf env (.num ⟨k, 1⟩) = .ok ⟨[Term.ofReal (Real.int k)], unitPoly⟩ := by
  have h' := h.toIntOk
  have e1 : Real.ofRational env.toEnv ⟨k, 1⟩ = .ok (Real.int k) := by
    unfold Real.ofRational Real.mk3
    rw [Rational.ofInt_eq _ _ (Real.abs1 h') h.hM, Res.bind_ok]
    exact Real.normalize_int' h' hk
  simp only [ofLeaf]
  rw [e1, Res.bind_ok]
  exact Frac.ofReal_int h hs ht hk

omit hs ht in
/-- a power with a natural exponent, inside and at the top of a tree. -/
theorem pow_top {l r : Node} {a x : Frac} {k : Nat} (hk : (k : Int) ≤ env.M) (hl : tryEval env l = .ok (some a))
    (hr : r = .frac ⟨[Term.ofReal (Real.int k)], unitPoly⟩) (hx : Frac.pow env a ⟨k, 1⟩ = .ok x) :
    tryEval env (.op '^' l r) = .ok (some x) ∧ normalize env (.op '^' l r) = .ok (.frac x) := by
  have h' := h.toIntOk
  have hkM : |(k : Int)| ≤ env.M := by rw [abs_of_nonneg (by positivity)]; exact hk
  subst hr
  constructor
  · unfold tryEval
    rw [hl, Res.bind_ok]
    unfold tryEval
    rw [Res.bind_ok]
    simp only
    unfold evalOp
    rw [if_neg (by decide), if_neg (by decide), if_neg (by decide), if_neg (by decide), if_pos rfl,
      Frac.tryEval_const h hkM, Res.bind_ok]
    simp only
    rw [Frac.isRational_int h' hkM, Res.bind_ok, if_pos rfl, Frac.toRational_const h' hkM, Res.bind_ok, hx, Res.bind_ok]
  · unfold normalize
    rw [hl, Res.bind_ok]
    unfold tryEval
    rw [Res.bind_ok]
    simp only
    rw [if_neg (by decide), if_neg (by decide), if_neg (by decide), if_neg (by decide), if_pos trivial,
      Frac.tryEval_const h hkM, Res.bind_ok]
    simp only
    rw [Frac.isRational_int h' hkM, Res.bind_ok, if_pos rfl, Frac.toRational_real h' hkM, Res.bind_ok, Res.bind_ok]
    simp only
    rw [hx, Res.bind_ok]

/-- ring expressions evaluate; `P` is anything that is true of the symbols and kept by adding exponents and by natural
multiples. -/
theorem ring_int {P : List Char × Rational → Prop} [ClosedNat env.M P] {e : Parser.Expr} (he : IntRing e)
    (hsz : ringSize e ≤ env.M) (hdeg : ringDeg e ≤ env.M) (hpf : PowFits e)
    (hP : ∀ x, .sym x ∈ e.leaves → P (x, ⟨1, 1⟩)) :
    ∃ n f, ofExpr env e = .ok n ∧ normalize env n = .ok (.frac f) ∧ tryEval env n = .ok (some f) ∧ f.IntPoly (ringDeg e) ∧
      f.num.l1 ≤ ringSize e ∧ f.In P ∧ (oneTerm e = true → f.num.length = 1) := by
  have h' := h.toIntOk
  have hM := h.hM
  have hM53 := h.hM53
  have ne1 : ∀ {f : Frac} {D : Int}, f.IntPoly D → f.num.length ≤ 1 → f.num.length = 1 := fun hf hl => by
    have := List.length_pos_iff.2 hf.ne
    omega
  induction e with
  | leaf l =>
    obtain ⟨f, f1, f2, f3⟩ := ofLeaf_int h' hs ht he hsz
    have hin : (Node.frac f).In P := by
      refine Node.ofExpr_in (e := .leaf l) hs (fun x w hx hw => ?_) (by unfold ofExpr; rw [f1, Res.bind_ok])
      rw [Rational.ofInt_eq _ _ (Real.abs1 h') hM] at hw
      cases hw
      exact hP x hx
    refine ⟨.frac f, f, ?_, rfl, rfl, f2, f3, hin, fun _ => ne1 f2 ?_⟩
    · unfold ofExpr
      rw [f1, Res.bind_ok]
    · cases l with
      | num q =>
        obtain ⟨r, -, f1⟩ := Res.bind_eq_ok.1 f1
        exact Frac.ofTerm_len hs f1
      | sym x =>
        obtain ⟨o, -, f1⟩ := Res.bind_eq_ok.1 f1
        obtain ⟨t, -, f1⟩ := Res.bind_eq_ok.1 f1
        exact Frac.ofTerm_len hs f1
  | node c a b ia ib =>
    have pa := ringSize_pos a
    have pb := ringSize_pos b
    have qa := ringDeg_nonneg a
    have qb := ringDeg_nonneg b
    obtain ⟨pfa, pfb, pf⟩ := hpf
    have hPa : ∀ x, .sym x ∈ a.leaves → P (x, ⟨1, 1⟩) := fun x hx => hP x (by simp [Parser.Expr.leaves, hx])
    have hPb : ∀ x, .sym x ∈ b.leaves → P (x, ⟨1, 1⟩) := fun x hx => hP x (by simp [Parser.Expr.leaves, hx])
    rcases he with ⟨hc, ha, hb⟩ | ⟨rfl, ha, k, rfl⟩
    · by_cases hm : c = '*'
      · subst hm
        have z1 : ringSize (.node '*' a b) = ringSize a * ringSize b := if_pos rfl
        have z2 : ringDeg (.node '*' a b) = ringDeg a + ringDeg b := if_pos rfl
        rw [z1] at hsz
        rw [z2] at hdeg
        have sa : ringSize a ≤ env.M := by nlinarith
        have sb : ringSize b ≤ env.M := by nlinarith
        obtain ⟨na, fa, a1, a2, a3, a4, a5, a6, a7⟩ := ia ha sa (by omega) pfa hPa
        obtain ⟨nb, fb, b1, b2, b3, b4, b5, b6, b7⟩ := ib hb sb (by omega) pfb hPb
        have n1 := Poly.l1_nonneg fa.num
        have n2 := Poly.l1_nonneg fb.num
        have hl : fa.num.l1 * fb.num.l1 ≤ ringSize a * ringSize b := mul_le_mul a5 b5 n2 (by omega)
        obtain ⟨r, r1, r2, r3⟩ := Frac.mul_int h' hs ht qa qb hdeg a4 b4 (by omega) (by omega) (by omega)
        refine ⟨.op '*' na nb, r, ?_, ?_, ?_, by rw [z2]; exact r2, by rw [z1]; omega, Frac.mul_in hs a6 b6 r1, ?_⟩
        · unfold ofExpr; rw [a1, Res.bind_ok, b1, Res.bind_ok]
        · unfold normalize; rw [a3, Res.bind_ok, b3, Res.bind_ok]
          simp only
          rw [if_neg (by decide), if_neg (by decide), if_pos trivial, r1, Res.bind_ok]
        · unfold tryEval; rw [a3, Res.bind_ok, b3, Res.bind_ok]
          show evalOp env '*' fa fb = _
          unfold evalOp
          rw [if_neg (by decide), if_neg (by decide), if_pos rfl, r1, Res.bind_ok]
        · intro ho
          have ho : oneTerm a = true ∧ oneTerm b = true := by simpa [oneTerm] using ho
          have := Frac.mul_len hs r1
          rw [a7 ho.1, b7 ho.2] at this
          exact ne1 r2 this
      · have hc' : c ≠ '^' := by rcases hc with rfl | rfl | rfl <;> decide
        have z1 : ringSize (.node c a b) = ringSize a + ringSize b := by
          simp only [ringSize, if_neg hm, if_neg hc']
        have z2 : ringDeg (.node c a b) = max (ringDeg a) (ringDeg b) := by
          simp only [ringDeg, if_neg hm, if_neg hc']
        have z3 : oneTerm (.node c a b) = false := by simp [oneTerm, hm, hc']
        rw [z1] at hsz
        rw [z2] at hdeg
        obtain ⟨na, fa, a1, a2, a3, a4, a5, a6, -⟩ := ia ha (by omega) (by omega) pfa hPa
        obtain ⟨nb, fb, b1, b2, b3, b4, b5, b6, -⟩ := ib hb (by omega) (by omega) pfb hPb
        have a4' := a4.mono (le_max_left _ (ringDeg b))
        have b4' := b4.mono (le_max_right (ringDeg a) _)
        rw [z3]
        rcases hc with rfl | rfl | rfl
        · obtain ⟨r, r1, r2, r3⟩ := Frac.add_int h' hs ht hdeg a4' b4' (by omega)
          refine ⟨.op '+' na nb, r, ?_, ?_, ?_, by rw [z2]; exact r2, by rw [z1]; omega, Frac.add_in hs a6 b6 r1, by simp⟩
          · unfold ofExpr; rw [a1, Res.bind_ok, b1, Res.bind_ok]
          · unfold normalize; rw [a3, Res.bind_ok, b3, Res.bind_ok]
            simp only
            rw [if_pos trivial, r1, Res.bind_ok]
          · unfold tryEval; rw [a3, Res.bind_ok, b3, Res.bind_ok]
            show evalOp env '+' fa fb = _
            unfold evalOp
            rw [if_pos rfl, r1, Res.bind_ok]
        · obtain ⟨r, r1, r2, r3⟩ := Frac.sub_int h' hs ht (by omega) hdeg a4' b4' (by omega)
          refine ⟨.op '-' na nb, r, ?_, ?_, ?_, by rw [z2]; exact r2, by rw [z1]; omega, Frac.sub_in hs a6 b6 r1, by simp⟩
          · unfold ofExpr; rw [a1, Res.bind_ok, b1, Res.bind_ok]
          · unfold normalize; rw [a3, Res.bind_ok, b3, Res.bind_ok]
            simp only
            rw [if_neg (by decide), if_pos trivial, r1, Res.bind_ok]
          · unfold tryEval; rw [a3, Res.bind_ok, b3, Res.bind_ok]
            show evalOp env '-' fa fb = _
            unfold evalOp
            rw [if_neg (by decide), if_pos rfl, r1, Res.bind_ok]
        · exact absurd rfl hm
    · have ek : expo (.leaf (.num ⟨(k : Int), 1⟩)) = k := by simp [expo]
      obtain ⟨p1, p0, p2, p3⟩ := pf rfl
      rw [ek] at p1 p2 p3
      have z1 : ringSize (.node '^' a (.leaf (.num ⟨(k : Int), 1⟩))) = ringSize a ^ k := by
        simp only [ringSize, ek]
        rw [if_neg (by decide), if_pos trivial]
      have z2 : ringDeg (.node '^' a (.leaf (.num ⟨(k : Int), 1⟩))) = ringDeg a * max 1 (k : Int) := by
        simp only [ringDeg, ek]
        rw [if_neg (by decide), if_pos trivial]
      rw [z2] at hdeg
      have da : ringDeg a ≤ env.M := le_trans (le_mul_of_one_le_right qa (le_max_left _ _)) hdeg
      have hsa : ringSize a ≤ env.M := by omega
      obtain ⟨na, fa, a1, a2, a3, a4, a5, a6, a7⟩ := ia ha hsa da pfa hPa
      obtain ⟨r, r1, r2, r3⟩ := Frac.pow_int h hs ht qa a4 hdeg p1 pa a5 hsa p2
        (p3.imp_left a7)
      have hkM : (k : Int) ≤ env.M := by omega
      obtain ⟨t1, t2⟩ := pow_top h hkM a3 rfl r1
      refine ⟨_, r, ?_, t2, t1, by rw [z2]; exact r2, by rw [z1]; exact r3, Frac.pow_in_nat hs hM hkM a6 r1, ?_⟩
      · unfold ofExpr
        rw [a1, Res.bind_ok]
        unfold ofExpr
        rw [ofLeaf_const h hs ht (by rw [abs_of_nonneg (by positivity)]; exact hkM)]
        rfl
      · intro ho
        have ho : oneTerm a = true := by simpa [oneTerm] using ho
        exact ne1 r2 (Frac.pow_len hs (a7 ho) r1)

end

end Node
end Symxx.Sym

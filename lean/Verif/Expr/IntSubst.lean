import Verif.Expr.IntEval
/-!
# Substituting integers for all symbols of a polynomial
-/
namespace Symxx.Sym
open Symxx.Num

variable {env : FEnv}

/-- the hypotheses of a substitution: all symbols are bound to integers of magnitude at most `K`, exponents are natural
and at most `D`, terms have at most `m` symbols. -/
structure SubstInt (b : List (List Char × Num.Real)) (κ : List Char → Int) (K : Int) (D m : Nat) (p : Poly) : Prop where
  bound : ∀ t ∈ p, ∀ q ∈ t.syms, Term.lookup b q.1 = some (Real.int (κ q.1)) ∧ |κ q.1| ≤ K ∧ NatExp q ∧ q.2.num ≤ D
  few : ∀ t ∈ p, t.syms.length ≤ m

section
variable (h : env.toEnv.PowOk)
include h

/-- `K` bounds the values, `D` the exponents; `K ^ D` and all partial products are exact. -/
theorem Term.substLoop_int {b : List (List Char × Num.Real)} {κ : List Char → Int} {K : Int} {D : Nat} (hK : 1 ≤ K)
    (hKD : K ^ D ≤ 2 ^ 53) (hD : (D : Int) ≤ 2 ^ 53) : ∀ {s : Syms} {c : Int},
    (∀ p ∈ s, lookup b p.1 = some (Real.int (κ p.1)) ∧ |κ p.1| ≤ K ∧ |κ p.1| ≤ env.M ∧ NatExp p ∧ p.2.num ≤ D) →
    |c| * K ^ (D * s.length) ≤ env.M → substLoop env.toEnv b s (Real.int c) = .ok (Real.int (c * s.at κ)) := by
  have h' := h.toIntOk
  have hM53 := h.hM53
  intro s
  induction s with
  | nil => intro c _ _; unfold substLoop; simp [Syms.at]
  | cons p s ih =>
    intro c hp hc
    obtain ⟨x, v⟩ := p
    obtain ⟨p1, p2, p3, ⟨p4, p5⟩, p6⟩ := hp _ List.mem_cons_self
    have p4 : 0 ≤ v.num := p4
    have p5 : v.den = 1 := p5
    have p6 : v.num ≤ D := p6
    obtain ⟨n, hn⟩ := Int.eq_ofNat_of_zero_le p4
    have hnD : n ≤ D := by omega
    have hv : v = ⟨(n : Int), 1⟩ := by cases v; simp_all
    have hkn : |κ x ^ n| ≤ K ^ D := by
      rw [abs_pow]
      exact le_trans (pow_le_pow_left₀ (abs_nonneg _) p2 _) (pow_le_pow_right₀ hK hnD)
    have hKpos : ∀ m : Nat, 1 ≤ K ^ m := fun m => one_le_pow₀ hK
    have hlen : K ^ (D * (s.length + 1)) = K ^ D * K ^ (D * s.length) := by rw [mul_add, mul_one, pow_add, mul_comm]
    rw [List.length_cons, hlen] at hc
    have q1 := hKpos D
    have q2 := hKpos (D * s.length)
    have hck : |c * κ x ^ n| * K ^ (D * s.length) ≤ env.M := by
      rw [abs_mul]
      calc |c| * |κ x ^ n| * K ^ (D * s.length) ≤ |c| * K ^ D * K ^ (D * s.length) := by
            gcongr
        _ ≤ env.M := by rw [mul_assoc]; exact hc
    have hcM : |c| ≤ env.M := by
      refine le_trans ?_ hc
      exact le_mul_of_one_le_right (abs_nonneg _) (by nlinarith)
    have hckM : |c * κ x ^ n| ≤ env.M := le_trans (le_mul_of_one_le_right (abs_nonneg _) q2) hck
    unfold substLoop
    rw [p1]
    simp only
    rw [hv, Real.pow_int h p3 (le_trans hkn hKD) (by omega), Res.bind_ok,
      Real.mul_int h' hcM (le_trans hkn (le_trans hKD hM53)) hckM, Res.bind_ok,
      ih (fun p hp' => hp p (List.mem_cons_of_mem _ hp')) hck]
    rw [← hv]
    have : Syms.at κ ((x, v) :: s) = κ x ^ n * Syms.at κ s := by simp [Syms.at, hn]
    rw [this, mul_assoc]

theorem Poly.substitute_int {b : List (List Char × Num.Real)} {κ : List Char → Int} {K : Int} {D m : Nat} (hK : 1 ≤ K)
    (hKD : K ^ D ≤ 2 ^ 53) (hKM : K ≤ env.M) (hD : (D : Int) ≤ 2 ^ 53) {D' : Int} : ∀ {p : Poly}, p.IntLe D' →
    SubstInt b κ K D m p → p.l1 * K ^ (D * m) ≤ env.M →
    ∃ r, Poly.substitute env.toEnv b p = .ok r ∧ r.Consts ∧ r.total = p.at κ ∧ r.l1 ≤ p.l1 * K ^ (D * m) ∧ r.length = p.length := by
  intro p
  induction p with
  | nil =>
    intro _ _ _
    exact ⟨[], rfl, by intro t ht; simp at ht, by simp [Poly.total, Poly.at], by simp [Poly.l1], rfl⟩
  | cons t p ih =>
    intro hi hS hM
    obtain ⟨hit, hip⟩ := Poly.intLe_cons.1 hi
    have hKm : 1 ≤ K ^ (D * m) := one_le_pow₀ hK
    rw [Poly.l1_cons, add_mul] at hM
    have n1 : 0 ≤ |t.coe.coe.num| * K ^ (D * m) := by positivity
    have n2 : 0 ≤ Poly.l1 p * K ^ (D * m) := mul_nonneg (Poly.l1_nonneg p) (by omega)
    obtain ⟨r, r1, r2, r3, r4, r5⟩ := ih hip ⟨fun u hu => hS.bound u (List.mem_cons_of_mem _ hu),
      fun u hu => hS.few u (List.mem_cons_of_mem _ hu)⟩ (by omega)
    have hb := hS.bound t List.mem_cons_self
    have hf := hS.few t List.mem_cons_self
    have hpow : K ^ (D * t.syms.length) ≤ K ^ (D * m) := pow_le_pow_right₀ hK (Nat.mul_le_mul_left _ hf)
    have hle : |t.coe.coe.num| * K ^ (D * t.syms.length) ≤ |t.coe.coe.num| * K ^ (D * m) :=
      mul_le_mul_of_nonneg_left hpow (abs_nonneg _)
    have e1 := Term.substLoop_int h (b := b) (κ := κ) hK hKD hD (s := t.syms) (c := t.coe.coe.num)
      (fun q hq => by
        obtain ⟨b1, b2, b3, b4⟩ := hb q hq
        exact ⟨b1, b2, le_trans b2 hKM, b3, b4⟩) (by omega)
    have e2 : t.syms.filter (fun p => !(b.any fun q => q.1 = p.1)) = [] := by
      rw [List.filter_eq_nil_iff]
      intro q hq
      obtain ⟨b1, -⟩ := hb q hq
      have : ∃ y ∈ b, y.1 = q.1 := by
        unfold Term.lookup at b1
        cases hfi : b.find? fun p => decide (p.1 = q.1) with
        | none => rw [hfi] at b1; simp at b1
        | some y =>
          have m1 := List.mem_of_find?_eq_some hfi
          have m2 := List.find?_some hfi
          exact ⟨y, m1, by simpa using m2⟩
      obtain ⟨y, y1, y2⟩ := this
      have : b.any (fun r => decide (r.1 = q.1)) = true := List.any_eq_true.2 ⟨y, y1, by simpa using y2⟩
      simp [this]
    have e3 : Term.substitute env.toEnv b t = .ok (Term.con (t.coe.coe.num * t.syms.at κ)) := by
      unfold Term.substitute
      conv_lhs => rw [hit.1]
      rw [e1, Res.bind_ok, e2]
      rfl
    refine ⟨Term.con (t.coe.coe.num * t.syms.at κ) :: r, ?_, ?_, ?_, ?_, by simp [r5]⟩
    · unfold Poly.substitute Poly.mapM
      unfold Poly.substitute at r1
      rw [e3, Res.bind_ok, r1, Res.bind_ok]
    · intro u hu
      rcases List.mem_cons.1 hu with rfl | hu
      · rfl
      · exact r2 u hu
    · rw [Poly.total_cons, r3]
      simp only [Poly.at, List.map_cons, List.sum_cons]
      rfl
    · rw [Poly.l1_cons, Poly.l1_cons, add_mul]
      have : |(Term.con (t.coe.coe.num * t.syms.at κ)).coe.coe.num| ≤ |t.coe.coe.num| * K ^ (D * m) := by
        show |t.coe.coe.num * t.syms.at κ| ≤ _
        rw [abs_mul]
        refine le_trans (mul_le_mul_of_nonneg_left ?_ (abs_nonneg _)) hle
        clear * - hb hK
        generalize t.syms = s at hb
        induction s with
        | nil => simp [Syms.at]
        | cons q s ih =>
          have ih := ih fun r hr => hb r (List.mem_cons_of_mem _ hr)
          obtain ⟨-, b2, b3, b4⟩ := hb q List.mem_cons_self
          have hq : q.2.num.toNat ≤ D := by omega
          have : Syms.at κ (q :: s) = κ q.1 ^ q.2.num.toNat * Syms.at κ s := by simp [Syms.at]
          rw [this, abs_mul, abs_pow, List.length_cons, mul_add, mul_one, pow_add, mul_comm (K ^ _)]
          refine mul_le_mul (le_trans (pow_le_pow_left₀ (abs_nonneg _) b2 _) (pow_le_pow_right₀ hK hq)) ih (abs_nonneg _)
            (by positivity)
      omega

end

section
variable (h : env.toEnv.PowOk) (hs : SortOk env.sort) (ht : Poly.SortTotal env)
include h hs ht

/-- a polynomial with all symbols replaced by integers: the program computes its value. -/
theorem Frac.substitute_int {b : List (List Char × Num.Real)} {κ : List Char → Int} {K : Int} {D m : Nat} (hK : 1 ≤ K)
    (hKD : K ^ D ≤ 2 ^ 53) (hKM : K ≤ env.M) (hD : (D : Int) ≤ 2 ^ 53) {D' : Int} {f : Frac} (hi : f.IntPoly D')
    (hS : SubstInt b κ K D m f.num) (hM : f.num.l1 * K ^ (D * m) ≤ env.M) :
    Frac.substitute env b f = .ok (Frac.con (f.num.at κ)) ∧ |f.num.at κ| ≤ env.M := by
  have h' := h.toIntOk
  obtain ⟨r, r1, r2, r3, r4, r5⟩ := Poly.substitute_int h hK hKD hKM hD hi.num hS hM
  refine ⟨?_, by rw [← r3]; exact le_trans (Poly.total_le r) (le_trans r4 hM)⟩
  have rne : r ≠ [] := by
    intro e
    rw [e] at r5
    exact hi.ne (List.length_eq_zero_iff.1 r5.symm)
  have e1 : Poly.substitute env.toEnv b unitPoly = .ok unitPoly := rfl
  have e2 := Frac.normalize_consts h hs ht rne r2 (by omega)
  have hz : Poly.isZero env.toEnv unitPoly = .ok false := by
    unfold unitPoly Poly.isZero Term.coeIs
    rw [Real.ofInt_int h' (Real.abs0 h'), Res.bind_ok]
    simp only [Term.ofReal]
    rw [Real.eq_int h' (Real.abs1 h') (Real.abs0 h'), Res.bind_ok]
    rfl
  unfold Frac.substitute
  rw [hi.den, r1, Res.bind_ok, e1, Res.bind_ok, e2, Res.bind_ok]
  show (Poly.isZero env.toEnv unitPoly >>= _) = _
  rw [hz, Res.bind_ok, r3]
  rfl

end

end Symxx.Sym

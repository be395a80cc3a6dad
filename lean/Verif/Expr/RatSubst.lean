import Verif.Expr.IntSubst
import Verif.Frac.RatSum
/-!
# Substituting fractions for all symbols of a polynomial
-/
namespace Symxx.Sym
open Symxx.Num

variable {env : FEnv}

/-- all symbols are bound to fractions with parts of magnitude at most `K`, exponents are natural and at most `D`; `V` holds the
symbols, and no symbol occurs twice in a term. -/
structure SubstRat (b : List (List Char × Num.Real)) (κ : List Char → Rational) (K : Int) (D : Nat) (V : Finset (List Char))
    (p : Poly) : Prop where
  bound : ∀ t ∈ p, ∀ q ∈ t.syms, Term.lookup b q.1 = some (Real.ofRat (κ q.1)) ∧ q.1 ∈ V ∧ NatExp q ∧ q.2.num ≤ D
  distinct : ∀ t ∈ p, (t.syms.map (·.1)).Nodup
  small : ∀ x ∈ V, |(κ x).num| ≤ K ∧ 0 < (κ x).den ∧ (κ x).den ≤ K

/-- the common denominator. -/
def commonDen (κ : List Char → Rational) (D : Nat) (V : Finset (List Char)) : Int := ∏ x ∈ V, (κ x).den ^ D

section
variable {κ : List Char → Rational} {K : Int} {D : Nat}

theorem commonDen_le {V : Finset (List Char)} (hK : 1 ≤ K) (hV : ∀ x ∈ V, 0 < (κ x).den ∧ (κ x).den ≤ K) :
    0 < commonDen κ D V ∧ commonDen κ D V ≤ K ^ (D * V.card) := by
  unfold commonDen
  refine ⟨Finset.prod_pos fun x hx => pow_pos (hV x hx).1 _, ?_⟩
  rw [pow_mul, ← Finset.prod_const]
  exact Finset.prod_le_prod (fun x hx => (pow_pos (hV x hx).1 _).le) fun x hx => pow_le_pow_left₀ (hV x hx).1.le (hV x hx).2 _

/-- a product of powers, over the common denominator. -/
theorem syms_common (hK : 1 ≤ K) : ∀ {s : Syms} {V : Finset (List Char)}, (∀ x ∈ V, |(κ x).num| ≤ K ∧ 0 < (κ x).den ∧ (κ x).den ≤ K) →
    (s.map (·.1)).Nodup → (∀ q ∈ s, q.1 ∈ V ∧ NatExp q ∧ q.2.num ≤ D) →
    ∃ w : Int, 0 < w ∧ s.at (fun x => (κ x).den) * w = commonDen κ D V ∧ |s.at fun x => (κ x).num| * w ≤ K ^ (D * V.card) := by
  intro s
  induction s with
  | nil =>
    intro V hV _ _
    obtain ⟨c1, c2⟩ := commonDen_le (D := D) hK fun x hx => (hV x hx).2
    exact ⟨_, c1, by simp [Syms.at], by simpa [Syms.at] using c2⟩
  | cons q s ih =>
    intro V hV nd hs
    obtain ⟨x, v⟩ := q
    obtain ⟨q1, ⟨q2, -⟩, q3⟩ := hs _ List.mem_cons_self
    simp only at q1 q2 q3
    rw [List.map_cons, List.nodup_cons] at nd
    obtain ⟨w, w0, w1, w2⟩ := ih (V := V.erase x) (fun y hy => hV y (Finset.mem_of_mem_erase hy)) nd.2 fun r hr => by
      obtain ⟨r1, r2, r3⟩ := hs r (List.mem_cons_of_mem _ hr)
      refine ⟨Finset.mem_erase.2 ⟨?_, r1⟩, r2, r3⟩
      rintro e
      exact nd.1 (List.mem_map.2 ⟨r, hr, e⟩)
    obtain ⟨v1, v2, v3⟩ := hV x q1
    have e0 : ∀ f : List Char → Int, Syms.at f ((x, v) :: s) = f x ^ v.num.toNat * Syms.at f s := fun f => by simp [Syms.at]
    have hn : v.num.toNat + (D - v.num.toNat) = D := by omega
    simp only [e0]
    generalize v.num.toNat = n at *
    generalize D - n = m at *
    have c1 : commonDen κ D V = (κ x).den ^ D * commonDen κ D (V.erase x) := by
      unfold commonDen
      rw [Finset.mul_prod_erase V (fun y => (κ y).den ^ D) q1]
    have c2 : K ^ (D * V.card) = K ^ D * K ^ (D * (V.erase x).card) := by
      rw [← pow_add, ← Finset.card_erase_add_one q1, mul_add, mul_one, add_comm]
    refine ⟨(κ x).den ^ m * w, mul_pos (pow_pos v2 _) w0, ?_, ?_⟩
    · rw [c1, ← w1, ← hn, pow_add]
      ring
    · rw [c2, abs_mul, abs_pow]
      have : |(κ x).num| ^ n * (κ x).den ^ m ≤ K ^ D := by
        rw [← hn, pow_add]
        exact mul_le_mul (pow_le_pow_left₀ (abs_nonneg _) v1 _) (pow_le_pow_left₀ v2.le v3 _) (pow_pos v2 _).le (by positivity)
      calc _ = |(κ x).num| ^ n * (κ x).den ^ m * (|Syms.at (fun x => (κ x).num) s| * w) := by ring
        _ ≤ _ := mul_le_mul this w2 (by positivity) (by positivity)

end

section
variable (h : env.toEnv.PowOk)
include h

theorem Term.substLoop_rat {b : List (List Char × Num.Real)} {κ : List Char → Rational} {K : Int} {D : Nat} (hK : 1 ≤ K)
    (hKD : K ^ D ≤ 2 ^ 53) (hD : (D : Int) ≤ 2 ^ 53) : ∀ {s : Syms} {N d : Int} {c : Rational}, c.Canc N d →
    (∀ p ∈ s, lookup b p.1 = some (Real.ofRat (κ p.1)) ∧ (|(κ p.1).num| ≤ K ∧ 0 < (κ p.1).den ∧ (κ p.1).den ≤ K) ∧ NatExp p ∧
      p.2.num ≤ D) →
    |N| * K ^ (D * s.length) ≤ env.M → d * K ^ (D * s.length) ≤ env.M →
    ∃ r, substLoop env.toEnv b s (Real.ofRat c) = .ok (Real.ofRat r) ∧
      r.Canc (N * s.at fun x => (κ x).num) (d * s.at fun x => (κ x).den) := by
  have h' := h.toIntOk
  have hM53 := h.hM53
  intro s
  induction s with
  | nil => intro N d c hc _ _ _; unfold substLoop; exact ⟨c, rfl, by simpa [Syms.at] using hc⟩
  | cons p s ih =>
    intro N d c hc hp hN hd
    obtain ⟨x, v⟩ := p
    obtain ⟨p1, ⟨p2, p3, p7⟩, ⟨p4, p5⟩, p6⟩ := hp _ List.mem_cons_self
    simp only at p1 p2 p3 p4 p5 p6 p7
    obtain ⟨n, hn⟩ := Int.eq_ofNat_of_zero_le p4
    have hnD : n ≤ D := by omega
    have hv : v = ⟨(n : Int), 1⟩ := by cases v; simp_all
    have hkn : |(κ x).num ^ n| ≤ K ^ D := by
      rw [abs_pow]
      exact le_trans (pow_le_pow_left₀ (abs_nonneg _) p2 _) (pow_le_pow_right₀ hK hnD)
    have hdn : (κ x).den ^ n ≤ K ^ D := le_trans (pow_le_pow_left₀ p3.le p7 _) (pow_le_pow_right₀ hK hnD)
    have hd0 : 0 < (κ x).den ^ n := pow_pos p3 n
    have d0 := hc.pos
    have hlen : K ^ (D * (s.length + 1)) = K ^ D * K ^ (D * s.length) := by rw [mul_add, mul_one, pow_add, mul_comm]
    rw [List.length_cons, hlen] at hN hd
    have q1 : 1 ≤ K ^ D := one_le_pow₀ hK
    have q2 : 1 ≤ K ^ (D * s.length) := one_le_pow₀ hK
    have hN' : |N * (κ x).num ^ n| * K ^ (D * s.length) ≤ env.M := by
      rw [abs_mul]
      calc |N| * |(κ x).num ^ n| * K ^ (D * s.length) ≤ |N| * K ^ D * K ^ (D * s.length) := by gcongr
        _ ≤ env.M := by rw [mul_assoc]; exact hN
    have hd' : d * (κ x).den ^ n * K ^ (D * s.length) ≤ env.M := by
      calc d * (κ x).den ^ n * K ^ (D * s.length) ≤ d * K ^ D * K ^ (D * s.length) := by gcongr
        _ ≤ env.M := by rw [mul_assoc]; exact hd
    have hNM : |N| ≤ env.M := le_trans (le_mul_of_one_le_right (abs_nonneg _) (by nlinarith)) hN
    have hkM : |(κ x).num ^ n| ≤ env.M := le_trans hkn (le_trans hKD hM53)
    obtain ⟨pw, pw1, pw2⟩ := Real.pow_canc h (a := (κ x).num) (b := (κ x).den) (n := n) p3 (by omega) (le_trans hkn hKD) (le_trans hdn hKD)
    obtain ⟨m, m1, m2⟩ := Real.mul_ofRat_canc h' hc pw2 hNM hkM (le_trans (le_mul_of_one_le_right (abs_nonneg _) q2) hN')
      (le_trans (le_mul_of_one_le_right (by positivity) q2) hd')
    obtain ⟨r, r1, r2⟩ := ih m2 (fun p hp' => hp p (List.mem_cons_of_mem _ hp')) hN' hd'
    have e0 : ∀ f : List Char → Int, Syms.at f ((x, v) :: s) = f x ^ n * Syms.at f s := fun f => by simp [Syms.at, hn]
    refine ⟨r, ?_, ?_⟩
    · unfold substLoop
      rw [p1]
      simp only
      rw [hv]
      rw [show κ x = ⟨(κ x).num, (κ x).den⟩ from rfl, pw1, Res.bind_ok, m1, Res.bind_ok, r1]
    · simp only [e0]
      rwa [← mul_assoc, ← mul_assoc]

/-- every term becomes a constant over the common denominator. -/
theorem Poly.substitute_rat {b : List (List Char × Num.Real)} {κ : List Char → Rational} {K : Int} {D : Nat} {V : Finset (List Char)}
    (hK : 1 ≤ K) (hKD : K ^ D ≤ 2 ^ 53) (hD : (D : Int) ≤ 2 ^ 53) {D' : Int} : ∀ {p : Poly}, p.IntLe D' →
    SubstRat b κ K D V p → p.l1 * K ^ (D * V.card) ≤ env.M → K ^ (D * V.card) ≤ env.M →
    ∃ r, Poly.substitute env.toEnv b p = .ok r ∧ (∀ t ∈ r, RatConst (commonDen κ D V) t) ∧
      (r.map fun t => |t.times (commonDen κ D V)|).sum ≤ p.l1 * K ^ (D * V.card) ∧
      ((r.map (Term.times (commonDen κ D V))).sum : ℝ) / commonDen κ D V = Poly.value (fun x => (((κ x).val : ℚ) : ℝ)) p ∧
      r.length = p.length := by
  have h' := h.toIntOk
  intro p
  induction p with
  | nil =>
    intro _ _ _ _
    exact ⟨[], rfl, by simp, by simp [Poly.l1], by simp [Poly.value], rfl⟩
  | cons t p ih =>
    intro hi hS hM hM'
    obtain ⟨hit, hip⟩ := Poly.intLe_cons.1 hi
    have hKm : 1 ≤ K ^ (D * V.card) := one_le_pow₀ hK
    rw [Poly.l1_cons, add_mul] at hM
    have n1 : 0 ≤ |t.coe.coe.num| * K ^ (D * V.card) := by positivity
    have n2 : 0 ≤ Poly.l1 p * K ^ (D * V.card) := mul_nonneg (Poly.l1_nonneg p) (by omega)
    obtain ⟨r, r1, r2, r3, r4, r5⟩ := ih hip ⟨fun u hu => hS.bound u (List.mem_cons_of_mem _ hu),
      fun u hu => hS.distinct u (List.mem_cons_of_mem _ hu), hS.small⟩ (by omega) hM'
    have hb := hS.bound t List.mem_cons_self
    have hf := hS.distinct t List.mem_cons_self
    have hlen : t.syms.length ≤ V.card := by
      rw [← List.length_map (f := (·.1)), ← List.toFinset_card_of_nodup hf]
      refine Finset.card_le_card fun x hx => ?_
      obtain ⟨q, hq, rfl⟩ := List.mem_map.1 (List.mem_toFinset.1 hx)
      exact (hb q hq).2.1
    have hpow : K ^ (D * t.syms.length) ≤ K ^ (D * V.card) := pow_le_pow_right₀ hK (Nat.mul_le_mul_left _ hlen)
    have hle : |t.coe.coe.num| * K ^ (D * t.syms.length) ≤ |t.coe.coe.num| * K ^ (D * V.card) :=
      mul_le_mul_of_nonneg_left hpow (abs_nonneg _)
    obtain ⟨c, c1, c2⟩ := Term.substLoop_rat h (b := b) (κ := κ) hK hKD hD (s := t.syms) (c := ⟨t.coe.coe.num, 1⟩)
      (Rational.canc_self one_pos) (fun q hq => ⟨(hb q hq).1, hS.small _ (hb q hq).2.1, (hb q hq).2.2⟩) (by omega)
      (by rw [one_mul]; omega)
    rw [one_mul] at c2
    obtain ⟨w, w0, w1, w2⟩ := syms_common (κ := κ) (D := D) hK hS.small hf fun q hq => (hb q hq).2
    have c3 := c2.scale w0
    rw [w1] at c3
    obtain ⟨t1, t2⟩ := ratConst_of c3
    have e2 : t.syms.filter (fun p => !(b.any fun q => q.1 = p.1)) = [] := by
      rw [List.filter_eq_nil_iff]
      intro q hq
      obtain ⟨b1, -⟩ := hb q hq
      have : ∃ y ∈ b, y.1 = q.1 := by
        unfold Term.lookup at b1
        cases hfi : b.find? fun p => decide (p.1 = q.1) with
        | none => rw [hfi] at b1; simp at b1
        | some y =>
          have m1 := List.mem_of_find?_eq_some hfi
          have m2 := List.find?_some hfi
          exact ⟨y, m1, by simpa using m2⟩
      obtain ⟨y, y1, y2⟩ := this
      have : b.any (fun r => decide (r.1 = q.1)) = true := List.any_eq_true.2 ⟨y, y1, by simpa using y2⟩
      simp [this]
    have e3 : Term.substitute env.toEnv b t = .ok (Term.ofReal (Real.ofRat c)) := by
      unfold Term.substitute
      conv_lhs => rw [hit.1]
      rw [show Real.int t.coe.coe.num = Real.ofRat ⟨t.coe.coe.num, 1⟩ from rfl, c1, Res.bind_ok, e2]
      rfl
    obtain ⟨L0, -⟩ := commonDen_le (D := D) hK fun x hx => (hS.small x hx).2
    refine ⟨Term.ofReal (Real.ofRat c) :: r, ?_, ?_, ?_, ?_, by simp [r5]⟩
    · unfold Poly.substitute Poly.mapM
      unfold Poly.substitute at r1
      rw [e3, Res.bind_ok, r1, Res.bind_ok]
    · intro u hu
      rcases List.mem_cons.1 hu with rfl | hu
      · exact t1
      · exact r2 u hu
    · rw [Poly.l1_cons, add_mul, List.map_cons, List.sum_cons, t2]
      have : |t.coe.coe.num * (t.syms.at fun x => (κ x).num) * w| ≤ |t.coe.coe.num| * K ^ (D * V.card) := by
        rw [abs_mul, abs_mul, abs_of_pos w0, mul_assoc]
        exact mul_le_mul_of_nonneg_left w2 (abs_nonneg _)
      omega
    · rw [List.map_cons, List.sum_cons, t2, Int.cast_add, Int.cast_mul, Int.cast_mul]
      have hv : Poly.value (fun x => (((κ x).val : ℚ) : ℝ)) (t :: p) =
          t.coe.val * t.syms.value (fun x => (((κ x).val : ℚ) : ℝ)) + Poly.value (fun x => (((κ x).val : ℚ) : ℝ)) p := by
        simp [Poly.value, Term.value]
      have e4 : t.coe.val = (t.coe.coe.num : ℝ) := by
        rw [hit.1]
        simp [Num.Real.val, Num.Real.int, Rational.val]
      have e5 : t.syms.value (fun x => (((κ x).val : ℚ) : ℝ)) = ((t.syms.at fun x => (κ x).num : Int) : ℝ) / (t.syms.at fun x => (κ x).den : Int) := by
        clear * - hb
        generalize t.syms = s at hb
        induction s with
        | nil => simp [Syms.value, Syms.at]
        | cons q s ih =>
          obtain ⟨-, -, ⟨h1, h2⟩, -⟩ := hb q List.mem_cons_self
          obtain ⟨n, hn⟩ := Int.eq_ofNat_of_zero_le h1
          have ih := ih fun r hr => hb r (List.mem_cons_of_mem _ hr)
          have e : ((q.2.val : ℚ) : ℝ) = (n : ℝ) := by simp [Rational.val, h2, hn]
          have : Syms.value (fun x => (((κ x).val : ℚ) : ℝ)) (q :: s) =
              (((κ q.1).val : ℚ) : ℝ) ^ ((q.2.val : ℚ) : ℝ) * Syms.value (fun x => (((κ x).val : ℚ) : ℝ)) s := by
            simp [Syms.value]
          rw [this, ih, e, Real.rpow_natCast]
          simp [Syms.at, hn, Rational.val, div_pow, div_mul_div_comm]
      have w1' : ((t.syms.at fun x => (κ x).den : Int) : ℝ) * w = commonDen κ D V := by exact_mod_cast w1
      have d0 : ((t.syms.at fun x => (κ x).den : Int) : ℝ) ≠ 0 := by
        intro e
        rw [e, zero_mul] at w1'
        have : (0 : ℝ) < commonDen κ D V := by exact_mod_cast L0
        exact absurd w1' this.ne
      have w0' : (w : ℝ) ≠ 0 := by exact_mod_cast w0.ne'
      rw [hv, add_div, r4, e4, e5, ← w1', mul_div_mul_right _ _ w0', mul_div_assoc]

variable (hs : SortOk env.sort) (ht : Poly.SortTotal env) (h1 : Frac.SortOne env) (hr : SortRat env)
include hs ht h1 hr

/-- a polynomial with all symbols replaced by fractions: the program computes its value, in lowest terms. -/
theorem Frac.substitute_rat {b : List (List Char × Num.Real)} {κ : List Char → Rational} {K : Int} {D : Nat} {V : Finset (List Char)}
    (hK : 1 ≤ K) (hKD : K ^ D ≤ 2 ^ 53) (hD : (D : Int) ≤ 2 ^ 53) {D' : Int} {f : Frac} (hi : f.IntPoly D')
    (hS : SubstRat b κ K D V f.num) (hM' : K ^ (D * V.card) ≤ env.M)
    (hM : f.num.l1 * K ^ (D * V.card) * K ^ (D * V.card) ≤ env.M) :
    ∃ j k, Frac.substitute env b f = .ok (quo j k) ∧ 0 < k ∧ Int.gcd j k = 1 ∧ |j| ≤ env.M ∧ k ≤ env.M ∧
      (j : ℝ) / k = Poly.value (fun x => (((κ x).val : ℚ) : ℝ)) f.num := by
  have h' := h.toIntOk
  have hKm : 1 ≤ K ^ (D * V.card) := one_le_pow₀ hK
  have nn : 0 ≤ f.num.l1 * K ^ (D * V.card) := mul_nonneg (Poly.l1_nonneg _) (by omega)
  obtain ⟨r, r1, r2, r3, r4, r5⟩ := Poly.substitute_rat h hK hKD hD hi.num hS (le_trans (le_mul_of_one_le_right nn hKm) hM) hM'
  obtain ⟨L0, L1⟩ := commonDen_le (D := D) hK fun x hx => (hS.small x hx).2
  have rne : r ≠ [] := by
    intro e
    rw [e] at r5
    exact hi.ne (List.length_eq_zero_iff.1 r5.symm)
  obtain ⟨j, k, j1, j2, j3, j4, j5, j6⟩ := Frac.normalize_rats h' hs ht h1 hr L0 (le_trans L1 hM') rne r2
    (le_trans (mul_le_mul r3 L1 L0.le nn) hM)
  refine ⟨j, k, ?_, j2, j3, j4, j5, by rw [j6, r4]⟩
  have e1 : Poly.substitute env.toEnv b unitPoly = .ok unitPoly := rfl
  have hz : Poly.isZero env.toEnv [Term.con k] = .ok false := by
    unfold Poly.isZero Term.coeIs
    rw [Real.ofInt_int h' (Real.abs0 h'), Res.bind_ok]
    show (Real.eq env.toEnv (Real.int k) (Real.int 0) >>= _) = _
    rw [Real.eq_int h' (by rwa [abs_of_pos j2]) (Real.abs0 h'), Res.bind_ok]
    simp [j2.ne']
  unfold Frac.substitute
  rw [hi.den, r1, Res.bind_ok, e1, Res.bind_ok, j1, Res.bind_ok]
  show (Poly.isZero env.toEnv [Term.con k] >>= _) = _
  rw [hz, Res.bind_ok]
  rfl

end
end Symxx.Sym

import Verif.Frac.SurdRing
import Verif.Frac.IntFracPow
/-!
# Natural powers of sums of roots
-/
namespace Symxx.Num
namespace Real
variable {env : Env} {B : Nat}

/-- normalising a root of an integer with an integer before it (of any sign, or zero). -/
theorem normalize_root (hg : env.Good B) {L R : Nat} {a : Int} (hL0 : 0 < L) (hRp : 0 < R) (hR : R ≤ B)
    (hA : |a| * (outer L R : Nat) ≤ env.M) :
    ∃ (A : Int) (i' N' : Nat), normalize env ⟨L, ⟨R, 1⟩, ⟨a, 1⟩⟩ = .ok ⟨i', ⟨N', 1⟩, ⟨A, 1⟩⟩ ∧ Simplest N' i' ∧ (A = 0 → N' = 1) ∧
      i' ∣ L ∧ (A : ℝ) * (N' : ℝ) ^ ((1 : ℝ) / i') = (a : ℝ) * (R : ℝ) ^ ((1 : ℝ) / L) := by
  have hM := hg.M1
  have hdf : |(⟨a, 1⟩ : Rational).num| * outer L R ≤ env.M ∧ |(⟨a, 1⟩ : Rational).den| ≤ env.M := ⟨hA, by simpa using hM⟩
  obtain ⟨r, hr, c', hs, er⟩ := (normInt_sat hg L R hL0 hRp hR ⟨a, 1⟩ one_ne_zero).defined hdf
  have nf : NormOf _ _ r := (normInt_norm hg L R hL0 hRp hR ⟨a, 1⟩ one_ne_zero).post hr
  have hcc : r.coe = c' := by rw [er]; split <;> rfl
  obtain ⟨s1, s2, s3, s4, s5, s6⟩ := hs
  have s3 : 0 < c'.den := s3 one_pos
  have e1 : c'.den = 1 := by
    simp only [abs_one] at s5
    rw [abs_of_pos s3] at s5
    omega
  have nc := nf.canon
  have ni := nf.index
  have nv := nf.val
  rw [← normalize_int] at hr
  obtain ⟨k', rad, co⟩ := r
  obtain ⟨A, D⟩ := c'
  obtain ⟨N', e, sm, -, hz⟩ := nc
  simp only at e hcc e1 ni sm hz
  subst e hcc e1
  have v0 := val_mk k' N' 1 ⟨A, 1⟩
  have v1 := val_mk L R 1 ⟨a, 1⟩
  simp only [Nat.cast_one, div_one] at v0 v1
  refine ⟨A, k', N', hr, sm, hz, ni, ?_⟩
  have nv : Real.val ⟨k', ⟨N', 1⟩, ⟨A, 1⟩⟩ = Real.val ⟨L, ⟨R, 1⟩, ⟨a, 1⟩⟩ := nv
  rw [v0, v1] at nv
  simpa [Rational.val] using nv

end Real
end Symxx.Num

namespace Symxx.Sym
open Symxx.Num Nat
namespace RT
variable {B I : Nat} {V : ℝ}

/-- one. -/
theorem one_in : (⟨1, 1, 1⟩ : RT).In I := ⟨simplest11, fun _ => rfl, one_dvd _⟩
theorem int_in (k : Int) : (⟨1, 1, k⟩ : RT).In I := ⟨simplest11, fun _ => rfl, one_dvd _⟩
theorem int_val (k : Int) : RT.val ⟨1, 1, k⟩ = k := by simp [val]

/-- a natural power of a term. -/
theorem pow_term {env : FEnv} (hg : env.toEnv.Good B) (hB : 1 ≤ B) {t : RT} {k : Nat} (ht : t.In I) (hk : k ≤ 2 ^ 53)
    (hv : Room B I V) (hV : |t.val| ^ k ≤ V) :
    ∃ p : RT, Term.pow env.toEnv t.term ⟨k, 1⟩ = .ok p.term ∧ p.In I ∧ p.val = t.val ^ k := by
  have hp := hg.powOk hB
  have h' := hp.toIntOk
  have hM := hg.hM
  have i0 := ht.simplest.2.1
  have hk' : (k : Int) ≤ 2 ^ 53 := by exact_mod_cast hk
  have hkM : |(k : Int)| ≤ env.M := by rw [abs_of_nonneg (by positivity)]; omega
  have lift : ∀ {p : RT}, Real.pow env.toEnv t.term.coe ⟨k, 1⟩ = .ok p.term.coe → Term.pow env.toEnv t.term ⟨k, 1⟩ = .ok p.term := by
    intro p e
    unfold Term.pow
    rw [e, Res.bind_ok]
    show (Syms.scale env.M _ [] >>= _) = _
    unfold Syms.scale
    rw [Res.bind_ok]
    unfold Syms.dropZero
    rfl
  by_cases e0 : k = 0
  · subst e0
    refine ⟨⟨1, 1, 1⟩, lift ?_, one_in, by rw [int_val]; simp⟩
    unfold Real.pow Real.powN
    rw [Rational.eqInt_int hp.hM hkM (Real.abs0 h'), Res.bind_ok]
    simp [Real.ofInt_int h' (Real.abs1 h'), term, Term.ofReal, Real.int]
  by_cases e1 : k = 1
  · subst e1
    refine ⟨t, lift ?_, ht, by simp⟩
    unfold Real.pow Real.powN
    rw [Rational.eqInt_int hp.hM hkM (Real.abs0 h'), Res.bind_ok]
    simp only [Nat.cast_one, one_ne_zero, decide_false, Bool.false_eq_true, if_false]
    rw [Rational.eqInt_int hp.hM (Real.abs1 h') (Real.abs1 h'), Res.bind_ok]
    simp
  have key : t.N ^ k ≤ B ∧ |t.a ^ k| ≤ 2 ^ 53 ∧ |t.a| ≤ env.M ∧ |t.a ^ k| * (Real.outer t.i (t.N ^ k) : Nat) ≤ env.M := by
    by_cases ha : t.a = 0
    · rw [ha, ht.zero ha, one_pow, zero_pow e0]
      refine ⟨hB, by norm_num, by simp; omega, by simp; omega⟩
    have r1 := root_ge (t := t) ht.simplest.1
    have rp := root_pow (t := t) i0
    have av := abs_val t
    have a1 : (1 : ℝ) ≤ |(t.a : ℝ)| := by exact_mod_cast Int.one_le_abs ha
    have x1 := one_le_val ht.simplest.1 ha
    have hV1 : 1 ≤ V := le_trans (one_le_pow₀ x1) hV
    have c1 := coe_le (t := t) ht.simplest.1
    have s1 := root_le ha
    have V53 := hv.le53 hV1
    have hi := Nat.le_of_dvd hv.I0 ht.dvd
    generalize (t.N : ℝ) ^ ((1 : ℝ) / t.i) = x at *
    have xk : x ^ k ≤ V := le_trans (pow_le_pow_left₀ (by linarith) s1 k) hV
    have e : ((t.N ^ k : ℕ) : ℝ) = (x ^ k) ^ t.i := by push_cast; rw [← rp, ← pow_mul, ← pow_mul, mul_comm]
    have Np : 0 < t.N ^ k := pow_pos ht.simplest.1 k
    refine ⟨?_, ?_, ?_, ?_⟩
    · have : ((t.N ^ k : ℕ) : ℝ) ≤ B := by
        rw [e]
        exact le_trans (pow_le_pow_left₀ (by positivity) xk _) (le_trans (pow_le_pow_right₀ hV1 hi) hv.rad)
      exact_mod_cast this
    · have : ((|t.a ^ k| : Int) : ℝ) ≤ 2 ^ 53 := by
        push_cast
        rw [abs_pow]
        exact le_trans (pow_le_pow_left₀ (abs_nonneg _) c1 k) (le_trans hV V53)
      exact_mod_cast this
    · have : ((|t.a| : Int) : ℝ) ≤ 2 ^ 53 := by
        push_cast
        exact le_trans (le_self_pow₀ a1 e0) (le_trans (pow_le_pow_left₀ (abs_nonneg _) c1 k) (le_trans hV V53))
      have : |t.a| ≤ 2 ^ 53 := by exact_mod_cast this
      exact le_trans this hM
    · have fo := Real.free_outer (k := t.i) Np
      have fp := Real.free_pos t.i (t.N ^ k)
      have o1 : Real.outer t.i (t.N ^ k) ^ t.i ≤ t.N ^ k := by
        conv_rhs => rw [← fo]
        exact Nat.le_mul_of_pos_left _ fp
      have o2 : ((Real.outer t.i (t.N ^ k) : ℕ) : ℝ) ≤ x ^ k := by
        refine le_of_pow_le_pow_left₀ i0.ne' (by positivity) ?_
        rw [← e]
        exact_mod_cast o1
      generalize Real.outer t.i (t.N ^ k) = o at o2
      have : ((|t.a ^ k| * (o : Int) : Int) : ℝ) ≤ 2 ^ 53 := by
        push_cast
        rw [abs_pow]
        refine le_trans (mul_le_mul_of_nonneg_left o2 (by positivity)) (le_trans ?_ V53)
        rw [← mul_pow, ← av]
        exact hV
      have : |t.a ^ k| * (o : Int) ≤ 2 ^ 53 := by exact_mod_cast this
      exact le_trans this hM
  obtain ⟨k1, k2, k3, k4⟩ := key
  have Np : 0 < t.N ^ k := pow_pos ht.simplest.1 k
  obtain ⟨A, i', N', e, sm, z, dv, v⟩ := Real.normalize_root hg i0 Np k1 k4
  refine ⟨⟨i', N', A⟩, lift ?_, ⟨sm, z, dvd_trans dv ht.dvd⟩, ?_⟩
  · have e0' : ¬ ((k : Int) = 0) := by exact_mod_cast e0
    have e1' : ¬ ((k : Int) = 1) := by exact_mod_cast e1
    have n53 : |(t.N : Int) ^ k| ≤ 2 ^ 53 := by
      rw [abs_of_nonneg (by positivity)]
      exact_mod_cast hg.le53 k1
    have nM : |(t.N : Int)| ≤ env.M := by
      rw [abs_of_nonneg (by positivity)]
      have : t.N ≤ B := le_trans (Nat.le_self_pow e0 _) k1
      have : (t.N : Int) ≤ 2 ^ 53 := by exact_mod_cast hg.le53 this
      omega
    unfold Real.pow Real.powN
    rw [Rational.eqInt_int hp.hM hkM (Real.abs0 h'), Res.bind_ok]
    simp only [e0', decide_false, Bool.false_eq_true, if_false]
    rw [Rational.eqInt_int hp.hM hkM (Real.abs1 h'), Res.bind_ok]
    simp only [e1', decide_false, Bool.false_eq_true, if_false]
    rw [Rational.ofInt_eq _ _ (Real.abs0 h') hp.hM, Res.bind_ok, Rational.lt_int hkM (Real.abs0 h'), Res.bind_ok,
      if_neg (by simp)]
    unfold Real.powPos
    have e2 : (Rational.isInt ⟨(k : Int), 1⟩) = true := rfl
    rw [e2, if_pos rfl]
    simp only [term, Term.ofReal]
    rw [Rational.pow_int_eq hp.exact hM k3 k2 hk', Res.bind_ok, Rational.pow_int_eq hp.exact hM nM n53 hk', Res.bind_ok]
    have := e
    push_cast at this
    exact this
  · show (A : ℝ) * (N' : ℝ) ^ ((1 : ℝ) / i') = _
    rw [v]
    unfold val
    push_cast
    rw [mul_pow, ← Real.rpow_natCast (t.N : ℝ) k, ← Real.rpow_natCast ((t.N : ℝ) ^ _) k, ← Real.rpow_mul (by positivity),
      ← Real.rpow_mul (by positivity), mul_comm (k : ℝ)]

/-- the product of the powers of the terms. -/
noncomputable def powers (f : RT → ℝ) (l : List RT) (v : List Int) : ℝ := (List.zipWith (fun t a => f t ^ Int.toNat a) l v).prod

theorem powers_ge {f : RT → ℝ} (hf : ∀ t, 1 ≤ f t) : ∀ (l : List RT) (v : List Int), 1 ≤ powers f l v
  | [], _ => by simp [powers]
  | _ :: _, [] => by simp [powers]
  | t :: l, a :: v => by
    have := powers_ge hf l v
    unfold powers at this ⊢
    rw [List.zipWith_cons_cons, List.prod_cons]
    exact one_le_mul_of_one_le_of_one_le (one_le_pow₀ (hf t)) this

theorem powerProd_ok {env : FEnv} (hg : env.toEnv.Good B) (hB : 1 ≤ B) (hv : Room B I V) :
    ∀ {l : List RT} {v : List Int} {acc : RT}, (∀ t ∈ l, t.In I) → (∀ a ∈ v, 0 ≤ a ∧ a ≤ 2 ^ 53) → acc.In I →
      max 1 |acc.val| * powers (fun t => max 1 |t.val|) l v ≤ V →
      ∃ r : RT, Poly.powerProd env.toEnv (l.map term) v acc.term = .ok r.term ∧ r.In I ∧ r.val = acc.val * powers val l v
  | [], v, acc, _, _, ha, _ => ⟨acc, by unfold Poly.powerProd; rfl, ha, by simp [powers]⟩
  | t :: l, [], acc, _, _, ha, _ => ⟨acc, by unfold Poly.powerProd; rfl, ha, by simp [powers]⟩
  | t :: l, a :: v, acc, hl, hn, ha, hV => by
    have hM := hg.hM
    obtain ⟨a0, a53⟩ := hn a List.mem_cons_self
    obtain ⟨k, rfl⟩ := Int.eq_ofNat_of_zero_le a0
    have ht := hl t List.mem_cons_self
    have e : ∀ f : RT → ℝ, powers f (t :: l) ((k : Int) :: v) = f t ^ k * powers f l v := fun f => by
      unfold powers
      rw [List.zipWith_cons_cons, List.prod_cons, Int.toNat_natCast]
    rw [e] at hV ⊢
    have p1 := powers_ge (f := fun t => max 1 |t.val|) (fun t => le_max_left _ _) l v
    generalize hP : powers (fun t => max 1 |t.val|) l v = P at *
    have m1 := le_max_left 1 |acc.val|
    have m2 := le_max_right 1 |acc.val|
    have n1 := le_max_left 1 |t.val|
    have q1 : 1 ≤ max 1 |t.val| ^ k := one_le_pow₀ n1
    have q2 : |t.val| ^ k ≤ max 1 |t.val| ^ k := pow_le_pow_left₀ (abs_nonneg _) (le_max_right _ _) k
    generalize max 1 |t.val| ^ k = Q at *
    generalize hX : max 1 |acc.val| = X at *
    have XQ : X * Q ≤ V := le_trans (le_mul_of_one_le_right (by positivity) p1) (by rw [mul_assoc]; exact hV)
    have XV : X ≤ V := le_trans (le_mul_of_one_le_right (by positivity) q1) XQ
    have QV : Q ≤ V := le_trans (le_mul_of_one_le_left (by positivity) m1) XQ
    have V53 := hv.le53 (le_trans m1 XV)
    obtain ⟨x, x1, x2, x3⟩ := pow_term (env := env) hg hB ht (k := k) (by exact_mod_cast a53) hv (le_trans q2 QV)
    have small : ∀ {u : RT}, u.In I → |u.val| ≤ V → |u.a| ≤ env.M := fun {u} hu hV => by
      have : ((|u.a| : Int) : ℝ) ≤ 2 ^ 53 := by
        push_cast
        exact le_trans (coe_le hu.simplest.1) (le_trans hV V53)
      have : |u.a| ≤ 2 ^ 53 := by exact_mod_cast this
      exact le_trans this hM
    have aV : |acc.val| ≤ V := le_trans m2 XV
    have xa : |x.val| ≤ Q := by rw [x3, abs_pow]; exact q2
    have xV : |x.val| ≤ V := le_trans xa QV
    have pV : |acc.val| * |x.val| ≤ X * Q := mul_le_mul m2 xa (abs_nonneg _) (by positivity)
    obtain ⟨y, y1, y2, y3⟩ := mul_term (env := env) hg hB ha x2 (ha.ok hB hv aV).rad (x2.ok hB hv xV).rad (small ha aV) (small x2 xV) hv
      (le_trans pV XQ)
    obtain ⟨r, r1, r2, r3⟩ := powerProd_ok hg hB hv (l := l) (v := v) (acc := y) (fun t ht => hl t (List.mem_cons_of_mem _ ht))
      (fun a ha => hn a (List.mem_cons_of_mem _ ha)) y2 (by
        rw [hP]
        refine le_trans (mul_le_mul_of_nonneg_right (?_ : _ ≤ X * Q) (by positivity)) (by rw [mul_assoc]; exact hV)
        refine max_le (one_le_mul_of_one_le_of_one_le m1 q1) ?_
        rw [y3, abs_mul]; exact pV)
    refine ⟨r, ?_, r2, by rw [r3, y3, x3]; ring⟩
    rw [List.map_cons]
    unfold Poly.powerProd
    rw [Rational.ofInt_eq _ _ (by rw [abs_of_nonneg a0]; omega) hg.M1, Res.bind_ok, x1, Res.bind_ok, y1, Res.bind_ok]
    exact r1

/-- powers over factorials. -/
theorem powers_weight (f : RT → ℝ) : ∀ (l : List RT) (v : List Int), l.length = v.length →
    powers f l v = (Poly.factProd v : ℝ) * Poly.weight (l.map f) v
  | [], [], _ => by simp [powers, Poly.factProd, Poly.weight]
  | t :: l, a :: v, h => by
    have ih := powers_weight f l v (by simpa using h)
    have hf : ((Int.toNat a)! : ℝ) ≠ 0 := by exact_mod_cast Nat.factorial_ne_zero _
    simp only [powers, Poly.factProd, Poly.weight, List.zipWith_cons_cons, List.prod_cons, List.map_cons, Nat.cast_mul] at ih ⊢
    rw [ih]
    field_simp

theorem expandOne_ok {env : FEnv} (hg : env.toEnv.Good B) (hB : 1 ≤ B) (hv : Room B I V) {l : List RT} {v : List Int} {n : Nat}
    (hl : ∀ t ∈ l, t.In I) (hs : IsSol n l.length v) (hn : n ! ≤ 2 ^ 53)
    (hb : (n ! : ℝ) * Poly.weight (l.map fun t => max 1 |t.val|) v ≤ V) :
    ∃ r : RT, Poly.expandOne env.toEnv (l.map term) (n ! : Nat) v = .ok r.term ∧ r.In I ∧
      r.val = (n ! : ℝ) * Poly.weight (l.map val) v ∧ max 1 |r.val| ≤ (n ! : ℝ) * Poly.weight (l.map fun t => max 1 |t.val|) v := by
  have hp := hg.powOk hB
  have hM := hg.hM
  obtain ⟨hv1, hv2, hv3⟩ := hs
  obtain ⟨Q, hQ⟩ := Poly.multinomial_dvd hv2
  rw [hv3, Int.toNat_natCast, mul_comm] at hQ
  have hn' : (n ! : Int) ≤ 2 ^ 53 := by exact_mod_cast hn
  have f1 : (1 : Int) ≤ (n ! : Int) := by exact_mod_cast Nat.factorial_pos n
  have hfM : |(n ! : Int)| ≤ env.M := by rw [abs_of_nonneg (by omega)]; omega
  have hQz : (n ! : Int) = (Q : Int) * (Poly.factProd v : Int) := by exact_mod_cast hQ
  have hQr : (n ! : ℝ) = (Q : ℝ) * (Poly.factProd v : ℝ) := by exact_mod_cast hQ
  have fp : (1 : Int) ≤ (Poly.factProd v : Int) := by
    have : 0 < Poly.factProd v := by
      unfold Poly.factProd
      refine List.prod_pos fun a ha => ?_
      obtain ⟨b, -, rfl⟩ := List.mem_map.1 ha
      exact Nat.factorial_pos _
    exact_mod_cast this
  have Q1 : 1 ≤ Q := Nat.pos_of_ne_zero (by rintro rfl; rw [zero_mul] at hQ; exact n.factorial_ne_zero hQ)
  have hQf : (Q : Int) ≤ (n ! : Int) := by rw [hQz]; exact le_mul_of_one_le_right (by positivity) fp
  have n53 : (n : Int) ≤ 2 ^ 53 := by
    have : n ≤ 2 ^ 53 := le_trans n.self_le_factorial hn
    exact_mod_cast this
  have hvM : ∀ a ∈ v, 0 ≤ a ∧ a ≤ 2 ^ 53 := fun a ha => ⟨hv2 a ha, by
    have := List.single_le_sum hv2 a ha
    omega⟩
  have w1 := powers_weight (fun t => max 1 |t.val|) l v hv1.symm
  have w2 := powers_weight val l v hv1.symm
  have Qr1 : (1 : ℝ) ≤ Q := by exact_mod_cast Q1
  have Qv : max 1 |RT.val ⟨1, 1, (Q : Int)⟩| = Q := by
    rw [int_val, Int.cast_natCast, abs_of_nonneg (by positivity), max_eq_right Qr1]
  have ew : max 1 |RT.val ⟨1, 1, (Q : Int)⟩| * powers (fun t => max 1 |t.val|) l v =
      (n ! : ℝ) * Poly.weight (l.map fun t => max 1 |t.val|) v := by rw [w1, Qv, hQr]; ring
  obtain ⟨r, r1, r2, r3⟩ := powerProd_ok (env := env) hg hB hv (l := l) (v := v) (acc := ⟨1, 1, (Q : Int)⟩) hl hvM (int_in _)
    (by rw [ew]; exact hb)
  refine ⟨r, ?_, r2, ?_, ?_⟩
  · unfold Poly.expandOne
    have hQM : |(Q : Int)| ≤ env.M := by rw [abs_of_nonneg (by positivity)]; omega
    have e1 : Real.ofRational env.toEnv ⟨(Q : Int), 1⟩ = .ok (Real.int Q) := by
      have := Real.ofInt_int hp.toIntOk hQM
      unfold Real.ofInt at this
      rwa [Rational.ofInt_eq _ _ hQM hp.hM, Res.bind_ok] at this
    rw [wrap_of_range (inRange_of_abs hfM), Rational.ofInt_eq _ _ hfM hp.hM, Res.bind_ok, hQz,
      Poly.divFacts_int hp.hM (fun a ha => ⟨(hvM a ha).1, le_trans (hvM a ha).2 hM⟩) (by positivity) (by omega), Res.bind_ok, e1, Res.bind_ok]
    exact r1
  · rw [r3, w2, hQr, int_val, Int.cast_natCast]; ring
  · rw [← ew, r3, abs_mul]
    have p1 := powers_ge (f := fun t => max 1 |t.val|) (fun t => le_max_left _ _) l v
    have pp : ∀ (l : List RT) (v : List Int), |powers val l v| ≤ powers (fun t => max 1 |t.val|) l v := by
      intro l
      induction l with
      | nil => intro v; simp [powers]
      | cons t l ih =>
        intro v
        cases v with
        | nil => simp [powers]
        | cons a v =>
          have := ih v
          unfold powers at this ⊢
          rw [List.zipWith_cons_cons, List.prod_cons, List.zipWith_cons_cons, List.prod_cons, abs_mul, abs_pow]
          exact mul_le_mul (pow_le_pow_left₀ (abs_nonneg _) (le_max_right _ _) _) this (abs_nonneg _) (by positivity)
    refine max_le (one_le_mul_of_one_le_of_one_le (le_max_left _ _) p1) ?_
    exact mul_le_mul (le_max_right _ _) (pp l v) (abs_nonneg _) (by positivity)

theorem expand_ok {env : FEnv} (hg : env.toEnv.Good B) (hB : 1 ≤ B) (hv : Room B I V) {l : List RT} {n : Nat}
    (hl : ∀ t ∈ l, t.In I) (hn : n ! ≤ 2 ^ 53) : ∀ {vs : List (List Int)}, (∀ v ∈ vs, IsSol n l.length v) →
    (n ! : ℝ) * (vs.map (Poly.weight (l.map fun t => max 1 |t.val|))).sum ≤ V →
    ∃ r : List RT, Poly.expand env.toEnv (l.map term) (n ! : Nat) vs = .ok (r.map term) ∧ (∀ t ∈ r, t.In I) ∧
      sum r = (n ! : ℝ) * (vs.map (Poly.weight (l.map val))).sum ∧
      bulk r ≤ (n ! : ℝ) * (vs.map (Poly.weight (l.map fun t => max 1 |t.val|))).sum ∧ r.length = vs.length
  | [], _, _ => ⟨[], by unfold Poly.expand; rfl, by simp, by simp [sum], by simp [bulk], rfl⟩
  | v :: vs, hs, hb => by
    have w0 : ∀ (l : List RT) (v : List Int), 0 ≤ Poly.weight (l.map fun t => max 1 |t.val|) v := by
      intro l
      induction l with
      | nil => intro v; simp [Poly.weight]
      | cons t l ih =>
        intro v
        cases v with
        | nil => simp [Poly.weight]
        | cons a v =>
          have := ih v
          unfold Poly.weight at this ⊢
          rw [List.map_cons, List.zipWith_cons_cons, List.prod_cons]
          positivity
    have s0 : 0 ≤ (vs.map (Poly.weight (l.map fun t => max 1 |t.val|))).sum := by
      refine List.sum_nonneg fun x hx => ?_
      obtain ⟨v, -, rfl⟩ := List.mem_map.1 hx
      exact w0 l v
    rw [List.map_cons, List.sum_cons, mul_add] at hb
    obtain ⟨t, t1, t2, t3, t4⟩ := expandOne_ok (env := env) hg hB hv hl (hs v List.mem_cons_self) hn (by
      have : (0 : ℝ) ≤ (n ! : ℝ) * (vs.map (Poly.weight (l.map fun t => max 1 |t.val|))).sum := by positivity
      linarith)
    obtain ⟨r, r1, r2, r3, r4, r5⟩ := expand_ok hg hB hv hl hn (vs := vs) (fun w hw => hs w (List.mem_cons_of_mem _ hw)) (by
      have := w0 l v
      have : (0 : ℝ) ≤ (n ! : ℝ) * Poly.weight (l.map fun t => max 1 |t.val|) v := by positivity
      linarith)
    refine ⟨t :: r, ?_, List.forall_mem_cons.2 ⟨t2, r2⟩, ?_, ?_, by simp [r5]⟩
    · unfold Poly.expand
      rw [t1, Res.bind_ok, r1, Res.bind_ok]
      rfl
    · rw [sum_cons, List.map_cons, List.sum_cons, mul_add, t3, r3]
    · rw [bulk_cons, List.map_cons, List.sum_cons, mul_add]
      exact add_le_add t4 r4

theorem tryEvalLoop_ok {env : FEnv} (hg : env.toEnv.Good B) (hB : 1 ≤ B) : ∀ {l : List RT} {m : Int}, (∀ t ∈ l, t.Ok I B) →
    |m| + l1 l ≤ env.M →
    (Poly.tryEvalLoop env.toEnv (l.map term) (Real.int m) = .ok none) ∨
    ((∀ t ∈ l, t.N = 1) ∧ Poly.tryEvalLoop env.toEnv (l.map term) (Real.int m) = .ok (some (Real.int (m + (l.map (·.a)).sum))))
  | [], m, _, _ => by right; exact ⟨by simp, by unfold Poly.tryEvalLoop; simp⟩
  | t :: l, m, h, hm => by
    have h' := (hg.powOk hB).toIntOk
    have ht := h t List.mem_cons_self
    rw [l1_cons] at hm
    have l0 : 0 ≤ l1 l := by
      unfold l1
      refine List.sum_nonneg fun x hx => ?_
      obtain ⟨u, -, rfl⟩ := List.mem_map.1 hx
      exact abs_nonneg _
    have hsum := abs_add_le m t.a
    have hma := abs_nonneg m
    have hta := abs_nonneg t.a
    have ok1 : (⟨1, 1, m⟩ : RT).Ok I B := ⟨simplest11, fun _ => rfl, le_trans ht.simplest.2.1 ht.idx, hB⟩
    have e := equiv_ok (env := env.toEnv) hg le_rfl ok1 ht
    have e2 : Real.isEquivalentWith env.toEnv (Real.int m) t.term.coe = .ok (decide (1 = t.i ∧ 1 = t.N)) := by
      have e' := e
      unfold Term.isEquivalentWith at e'
      have : Syms.eq env.M (term ⟨1, 1, m⟩).syms t.term.syms = .ok true := by
        show Syms.eq env.M [] [] = _
        unfold Syms.eq; rfl
      rw [this, Res.bind_ok, if_pos rfl] at e'
      exact e'
    have step : Poly.tryEvalLoop env.toEnv ((t :: l).map term) (Real.int m) =
        (Real.isEquivalentWith env.toEnv (Real.int m) t.term.coe >>= fun b => if b then
          (Real.add env.toEnv (Real.int m) t.term.coe >>= fun r => Poly.tryEvalLoop env.toEnv (l.map term) r) else .ok none) := rfl
    rw [step, e2, Res.bind_ok]
    by_cases hN : 1 = t.i ∧ 1 = t.N
    · rw [decide_eq_true hN, if_pos rfl]
      have et : t.term.coe = Real.int t.a := by
        unfold term Term.ofReal Real.int
        rw [← hN.1, ← hN.2]
        rfl
      rw [et, Real.add_int h' (by omega) (by omega) (by omega), Res.bind_ok]
      rcases tryEvalLoop_ok hg hB (l := l) (m := m + t.a) (fun t ht => h t (List.mem_cons_of_mem _ ht)) (by omega) with e | ⟨e3, e4⟩
      · exact Or.inl e
      · refine Or.inr ⟨List.forall_mem_cons.2 ⟨hN.2.symm, e3⟩, ?_⟩
        rw [e4, List.map_cons, List.sum_cons, add_assoc]
    · rw [decide_eq_false hN]
      exact Or.inl rfl

theorem tryEval_ok {env : FEnv} (hg : env.toEnv.Good B) (hB : 1 ≤ B) {l : List RT} (h : ∀ t ∈ l, t.Ok I B) (hm : l1 l ≤ env.M) :
    (Poly.tryEval env.toEnv (l.map term) = .ok none) ∨
    ((∀ t ∈ l, t.N = 1) ∧ Poly.tryEval env.toEnv (l.map term) = .ok (some (Real.int (l.map (·.a)).sum))) := by
  have h' := (hg.powOk hB).toIntOk
  unfold Poly.tryEval
  rw [Real.ofInt_int h' (Real.abs0 h'), Res.bind_ok]
  have := tryEvalLoop_ok (I := I) hg hB (m := 0) h (by simpa using hm)
  rwa [zero_add] at this

theorem abs_sum_le : ∀ l : List RT, |(l.map (·.a)).sum| ≤ l1 l
  | [] => by simp [l1]
  | t :: l => by
    rw [List.map_cons, List.sum_cons, l1_cons]
    exact le_trans (abs_add_le _ _) (by have := abs_sum_le l; omega)

/-- a natural power of a sum. -/
theorem pow_poly {env : FEnv} (hg : env.toEnv.Good B) (hB : 1 ≤ B) (hs : SortContract env) (hr : SortReturns env)
    {U : ℝ} {n : Nat} (hn : n ! ≤ 2 ^ 53) (U1 : 1 ≤ U) (hu : Room B I U) (hv : Room B I (U ^ n)) {l : List RT} (h : Ring I U l) (h0 : l ≠ []) :
    ∃ l' : List RT, Poly.pow env (l.map term) ⟨n, 1⟩ = .ok (l'.map term) ∧ Ring I (U ^ n) l' ∧ sum l' = sum l ^ n ∧ l' ≠ [] := by
  have hM := hg.hM
  have hp := hg.powOk hB
  have h' := hp.toIntOk
  have cu := ring_class hM hB hu
  have cv := ring_class hM hB hv
  have n53' : n ≤ 2 ^ 53 := le_trans n.self_le_factorial hn
  have n53 : (n : Int) ≤ 2 ^ 53 := by exact_mod_cast n53'
  have hnM : |(n : Int)| ≤ env.M := by rw [abs_of_nonneg (by positivity)]; omega
  have V1 : 1 ≤ U ^ n := one_le_pow₀ U1
  have norm : ∀ {q : List RT} {x : ℝ}, Ring I (U ^ n) q → sum q = x → q ≠ [] →
      ∃ l' : List RT, Poly.mk' env (q.map term) = .ok (l'.map term) ∧ Ring I (U ^ n) l' ∧ sum l' = x ∧ l' ≠ [] := by
    intro q x hq hx q0
    obtain ⟨k, k1, k2, k4, k5, -, -⟩ := normalize_ok hg le_rfl hs hr cv hq
    exact ⟨k, k1, k2, by rw [k4, hx], k5 q0⟩
  have single : ∀ {t : RT}, t.In I → max 1 |t.val| ≤ U ^ n → Ring I (U ^ n) [t] := by
    intro t ht hb
    refine ⟨fun u hu => by rw [List.mem_singleton.1 hu]; exact ht, ?_⟩
    rw [bulk_cons]
    simpa [bulk] using hb
  have sum1 : ∀ t : RT, sum [t] = t.val := fun t => by simp [sum]
  unfold Poly.pow
  rw [Rational.eqInt_int hp.hM hnM (Real.abs0 h'), Res.bind_ok]
  by_cases e0 : n = 0
  · subst e0
    simp only [Nat.cast_zero, decide_true, if_true]
    unfold Term.ofInt
    rw [Real.ofInt_int h' (Real.abs1 h'), Res.bind_ok, Res.bind_ok]
    exact norm (q := [⟨1, 1, 1⟩]) (single one_in (by rw [int_val]; simp)) (by rw [sum1, int_val]; simp) (by simp)
  have e0' : ¬ ((n : Int) = 0) := by exact_mod_cast e0
  simp only [e0', decide_false, Bool.false_eq_true, if_false]
  rw [Rational.eqInt_int hp.hM hnM (Real.abs1 h'), Res.bind_ok]
  by_cases e1 : n = 1
  · subst e1
    simp only [Nat.cast_one, decide_true, if_true]
    exact ⟨l, rfl, by rw [pow_one]; exact h, by rw [pow_one], h0⟩
  have e1' : ¬ ((n : Int) = 1) := by exact_mod_cast e1
  simp only [e1', decide_false, Bool.false_eq_true, if_false]
  have pw : ∀ {x : ℝ}, |x| ≤ U → max 1 |x ^ n| ≤ U ^ n := fun {x} hx =>
    max_le V1 (by rw [abs_pow]; exact pow_le_pow_left₀ (abs_nonneg _) hx n)
  match l, h, h0 with
  | [t], h, _ =>
    have ht := h.1 t (by simp)
    have tV := le_trans (val_le_bulk (t := t) (l := [t]) (by simp)) h.2
    obtain ⟨p, p1, p2, p3⟩ := pow_term (env := env) hg hB ht n53' hv (pow_le_pow_left₀ (abs_nonneg _) tV n)
    show ∃ l' : List RT, (Term.pow env.toEnv t.term ⟨n, 1⟩ >>= fun t => Poly.mk' env [t]) = _ ∧ _
    rw [p1, Res.bind_ok]
    exact norm (q := [p]) (single p2 (by rw [p3]; exact pw tV)) (by rw [sum1, sum1, p3]) (by simp)
  | t :: u :: l, h, _ =>
    have hlen : 2 ≤ (t :: u :: l).length := by simp
    generalize hk : t :: u :: l = k at *
    split
    · rename_i heq
      have := congrArg List.length heq
      rw [List.length_map, List.length_singleton] at this
      omega
    rcases tryEval_ok (env := env) hg hB (cu.ok h) (cu.fits h) with e | ⟨e2, e⟩
    · rw [e, Res.bind_ok]
      have e2 : Res.assert (Rational.isInt ⟨(n : Int), 1⟩) "Must be a int." = .ok () := rfl
      have e3 : Rational.toT env.M ⟨(n : Int), 1⟩ = .ok n := divT_ok.2 ⟨by norm_num, inRange_of_abs (by simpa using hnM), by simp⟩
      obtain ⟨L, hL1, -, hmem⟩ := solveEq_spec k.length n (by positivity) hlen
      have hf0 : (n ! : Int) ≤ env.M := by
        have : (n ! : Int) ≤ 2 ^ 53 := by exact_mod_cast hn
        omega
      have hf : Poly.factLoop env.M (Int.toNat (n : Int)) = ((n ! : Nat) : Int) := Poly.factLoop_eq _ n (by omega)
      have hw : env.toEnv.noWrap ((((n : Int).toNat)! : Int) ≤ env.M) = .ok () := Env.noWrap_ok _ (by simpa using hf0)
      have n0 : (n ! : ℝ) ≠ 0 := by exact_mod_cast n.factorial_ne_zero
      have sw : ∀ f : RT → ℝ, (n ! : ℝ) * (L.map (Poly.weight (k.map f))).sum = (k.map f).sum ^ n := fun f => by
        rw [Poly.solve_weight k.length n hlen _ (by simp) hL1]; field_simp
      have bn : (n ! : ℝ) * (L.map (Poly.weight (k.map fun t => max 1 |t.val|))).sum ≤ U ^ n := by
        rw [sw]; exact pow_le_pow_left₀ (bulk_nonneg k) h.2 n
      obtain ⟨r, r1, r2, r3, r4, r5⟩ := expand_ok (env := env) hg hB hv h.1 hn (vs := L) (fun v hv => (hmem v).1 hv) bn
      simp only
      rw [e2, Res.bind_ok, e3, Res.bind_ok, hw, Res.bind_ok, List.length_map, hL1, Res.bind_ok, hf, r1, Res.bind_ok]
      refine norm ⟨r2, le_trans r4 bn⟩ (by rw [r3, sw]; rfl) ?_
      rintro rfl
      have : ((n : Int) :: List.replicate (k.length - 1) 0) ∈ L := (hmem _).2 ⟨by simp; omega, by simp, by simp⟩
      have : 0 < L.length := List.length_pos_of_mem this
      simp at r5
      omega
    · rw [e, Res.bind_ok]
      simp only
      have a1 := abs_sum_le k
      have a2 := h.l1 hu
      have es := sum_int e2
      have vb : |(((k.map (·.a)).sum : Int) : ℝ)| ≤ U := by
        refine le_trans ?_ (le_trans (le_trans (l1_size fun t ht => (h.1 t ht).simplest.1) (size_le_bulk k)) h.2)
        exact_mod_cast a1
      generalize (k.map (·.a)).sum = z at *
      have pb := pw vb
      have b53 : |z ^ n| ≤ 2 ^ 53 := by
        have : ((|z ^ n| : Int) : ℝ) ≤ 2 ^ 53 := by
          push_cast
          exact le_trans (le_trans (le_max_right _ _) pb) (hv.le53 V1)
        exact_mod_cast this
      rw [Real.pow_int hp (by omega) b53 n53, Res.bind_ok]
      exact norm (q := [⟨1, 1, z ^ n⟩]) (single (int_in _) (by rw [int_val]; push_cast; exact pb))
        (by rw [sum1, int_val, es]; push_cast; rfl) (by simp)

/-- a natural power of a sum over 1. -/
theorem pow_frac {env : FEnv} (hg : env.toEnv.Good B) (hB : 1 ≤ B) (hs : SortContract env) (hr : SortReturns env) (ht : Poly.SortTotal env)
    {U : ℝ} {n : Nat} (hn : n ! ≤ 2 ^ 53) (U1 : 1 ≤ U) (hu : Room B I U) (hv : Room B I (U ^ n)) {l : List RT} (h : Ring I U l) (h0 : l ≠ []) :
    ∃ l' : List RT, Frac.pow env (frac l) ⟨n, 1⟩ = .ok (frac l') ∧ Ring I (U ^ n) l' ∧ sum l' = sum l ^ n ∧ l' ≠ [] ∧
      (nz l').Pairwise fun x y => y.grp < x.grp := by
  have hM := hg.hM
  have hp := hg.powOk hB
  have h' := hp.toIntOk
  have cu := ring_class hM hB hu
  have cv := ring_class hM hB hv
  have hI53 : I ≤ 2 ^ 53 := le_trans (Nat.le_mul_self I) hu.idx
  have n53' : n ≤ 2 ^ 53 := le_trans n.self_le_factorial hn
  have n53 : (n : Int) ≤ 2 ^ 53 := by exact_mod_cast n53'
  have V1 : 1 ≤ U ^ n := one_le_pow₀ U1
  unfold Frac.pow Frac.tryEval
  rcases tryEval_ok (env := env) hg hB (cu.ok h) (cu.fits h) with e | ⟨e2, e⟩
  · obtain ⟨k, k1, k2, k3, k4⟩ := pow_poly (env := env) hg hB hs hr hn U1 hu hv h h0
    obtain ⟨r, r1, r2, r4, r5, r7, r6⟩ := normalize_frac hg hB le_rfl hs hr ht hI53 cv k2 k4
    refine ⟨r, ?_, r2, by rw [r4, k3], r5, r6⟩
    have e' : Poly.tryEval env.toEnv (frac l).num = .ok none := e
    have d : Poly.tryEval env.toEnv (frac l).den = .ok (some (Real.int 1)) := Frac.tryEval_unit hp
    have k1' : Poly.pow env (frac l).num ⟨n, 1⟩ = .ok (k.map term) := k1
    have u : Poly.pow env (frac l).den ⟨n, 1⟩ = .ok [Term.con 1] := Frac.pow_unit hp hs.ok ht n53
    rw [e', Res.bind_ok, d, Res.bind_ok]
    simp only
    rw [k1', Res.bind_ok, u, Res.bind_ok]
    exact r1
  · have a1 := abs_sum_le l
    have a2 := h.l1 hu
    have es := sum_int e2
    have vb : |(((l.map (·.a)).sum : Int) : ℝ)| ≤ U := by
      refine le_trans ?_ (le_trans (le_trans (l1_size fun t ht => (h.1 t ht).simplest.1) (size_le_bulk l)) h.2)
      exact_mod_cast a1
    generalize (l.map (·.a)).sum = z at *
    have pb : |(z : ℝ) ^ n| ≤ U ^ n := by rw [abs_pow]; exact pow_le_pow_left₀ (abs_nonneg _) vb n
    have b53 : |z ^ n| ≤ 2 ^ 53 := by
      have : ((|z ^ n| : Int) : ℝ) ≤ 2 ^ 53 := by
        push_cast
        exact le_trans pb (hv.le53 V1)
      exact_mod_cast this
    have hq : Ring I (U ^ n) [⟨1, 1, z ^ n⟩] := ⟨fun u hu => by rw [List.mem_singleton.1 hu]; exact int_in _, by
      rw [bulk_cons, int_val]
      push_cast
      simpa [bulk] using ⟨V1, abs_pow (z : ℝ) n ▸ pb⟩⟩
    obtain ⟨q, q1, q2, q4, q5, -, -⟩ := normalize_ok hg le_rfl hs hr cv hq
    obtain ⟨r, r1, r2, r4, r5, r7, r6⟩ := normalize_frac hg hB le_rfl hs hr ht hI53 cv q2 (q5 (by simp))
    refine ⟨r, ?_, r2, by rw [r4, q4, es]; simp [sum, int_val], r5, r6⟩
    have e' : Poly.tryEval env.toEnv (frac l).num = .ok (some (Real.int z)) := e
    have d : Poly.tryEval env.toEnv (frac l).den = .ok (some (Real.int 1)) := Frac.tryEval_unit hp
    have dv : Real.div env.toEnv (Real.int z) (Real.int 1) = .ok (Real.int z) := by
      have := Real.div_int h' (q := z) (t := 1) (by rw [mul_one]; omega) one_pos hp.hM
      rwa [mul_one] at this
    rw [e', Res.bind_ok, d, Res.bind_ok]
    simp only
    rw [dv]
    simp only [Res.bind_ok]
    rw [Real.pow_int hp (by omega) b53 n53, Res.bind_ok]
    unfold Frac.ofReal Frac.ofTerm
    have m : Poly.mk' env [Term.ofReal (Real.int (z ^ n))] = .ok (q.map term) := q1
    rw [m, Res.bind_ok]
    unfold Frac.ofPoly
    have u : Frac.onePoly env = .ok [Term.con 1] := by
      unfold Frac.onePoly Term.ofInt
      rw [Real.ofInt_int h' (Real.abs1 h'), Res.bind_ok, Res.bind_ok]
      exact Frac.unitPoly_norm h' hs.ok ht
    rw [u, Res.bind_ok]
    exact r1

end RT
end Symxx.Sym

import Verif.Num.RealDecomp
import Verif.Num.RatSat
import Mathlib.Analysis.SpecialFunctions.Pow.Real
/-!
# `Real::normalize`: value and normal form
-/
namespace Symxx.Num

/-- assumptions on the machine: at least 54-bit `T`, exact floating-point steps on small integers. -/
structure Env.Base (env : Env) (B : Nat) : Prop where
  hM : (2 : Int) ^ 53 ≤ env.M
  exact : env.fl.Exact
  hB : B ≤ 2 ^ 53

/-- the environment assumptions: at least 54-bit `T`, exact floating-point steps on small integers,
and `factorize` returns the prime factors for all arguments up to `B` (C25). -/
structure Env.Good (env : Env) (B : Nat) : Prop extends env.Base B where
  hfac : ∀ n : Nat, 0 < n → n ≤ B → env.fac n = .ok n.primeFactorsList

theorem Env.Base.M1 {env : Env} {B : Nat} (h : env.Base B) : (1 : Int) ≤ env.M :=
  le_trans (by norm_num) h.hM

theorem Env.Base.le53 {env : Env} {B n : Nat} (h : env.Base B) (hn : n ≤ B) : (n : Int) ≤ 2 ^ 53 := by
  exact_mod_cast (le_trans hn h.hB)

theorem Env.Base.leM {env : Env} {B n : Nat} (h : env.Base B) (hn : n ≤ B) : (n : Int) ≤ env.M :=
  le_trans (h.le53 hn) h.hM

/-- the real number `coe * radicand^(1/index)` a `Real` denotes. -/
noncomputable def Real.val (r : Real) : ℝ := (r.coe.val : ℝ) * ((r.rad.val : ℝ)) ^ ((1 : ℝ) / r.index)

/-- `N^(1/k)` is written in simplest form: no `k`-th power can be taken out, and the index cannot be
lowered. -/
def Simplest (N k : Nat) : Prop :=
  0 < N ∧ 0 < k ∧ (∀ m, 1 < m → ¬ m ^ k ∣ N) ∧ (∀ m d, N = m ^ d → d ∣ k → d = 1)

/-- the normal form: integral positive radicand in simplest form; zero has radicand 1. -/
def Real.Canon (r : Real) : Prop :=
  ∃ N : Nat, r.rad = ⟨N, 1⟩ ∧ Simplest N r.index ∧ r.coe.den ≠ 0 ∧ (r.coe.num = 0 → N = 1)

/-- the same in terms of valuations. -/
theorem simplest_iff (N k : Nat) (hN : 0 < N) (hk : 0 < k) :
    Simplest N k ↔ (∀ p, p.Prime → N.factorization p < k) ∧
      (∀ d, d ∣ k → (∀ p, d ∣ N.factorization p) → d = 1) := by
  constructor
  · rintro ⟨-, -, h1, h2⟩
    refine ⟨?_, ?_⟩
    · intro p hp
      by_contra hc
      push Not at hc
      exact h1 p hp.one_lt ((hp.pow_dvd_iff_le_factorization hN.ne').2 hc)
    · intro d hd hv
      have hd0 : d ≠ 0 := by rintro rfl; have := Nat.eq_zero_of_zero_dvd hd; omega
      refine h2 (Nat.floorRoot d N) d ?_ hd
      refine Nat.eq_of_factorization_eq hN.ne' (pow_ne_zero _ (Nat.floorRoot_ne_zero.2 ⟨hd0, hN.ne'⟩)) fun p => ?_
      rw [Nat.factorization_pow, Nat.factorization_floorRoot]
      simp only [Finsupp.smul_apply, smul_eq_mul, Finsupp.floorDiv_apply, Nat.floorDiv_eq_div]
      exact (Nat.mul_div_cancel' (hv p)).symm
  · rintro ⟨h1, h2⟩
    refine ⟨hN, hk, ?_, ?_⟩
    · intro m hm hd
      obtain ⟨p, hp, hpm⟩ := Nat.exists_prime_and_dvd (n := m) (by omega)
      have := (hp.pow_dvd_iff_le_factorization hN.ne').1 ((pow_dvd_pow_of_dvd hpm k).trans hd)
      have := h1 p hp
      omega
    · intro m d e hd
      refine h2 d hd fun p => ?_
      rw [e, Nat.factorization_pow]
      simp

/-! ### taking powers out -/

/-- `c'` is `c` times the natural number `X`, computed without growing more than that. -/
def Scaled (c : Rational) (X : Nat) (c' : Rational) : Prop :=
  c'.val = c.val * X ∧ c'.den ≠ 0 ∧ c.KeepSign c' ∧ |c'.num| ≤ |c.num| * X ∧ |c'.den| ≤ |c.den| ∧
    (c.Lowest → c'.Lowest)

theorem Scaled.refl (c : Rational) (hc : c.den ≠ 0) : Scaled c 1 c := by
  refine ⟨by simp, hc, fun h => h, by simp, le_rfl, fun h => h⟩

theorem Scaled.trans {a b c : Rational} {X Y : Nat} (h1 : Scaled a X b) (h2 : Scaled b Y c) :
    Scaled a (X * Y) c := by
  obtain ⟨a1, a2, a3, a4, a5, a6⟩ := h1
  obtain ⟨b1, b2, b3, b4, b5, b6⟩ := h2
  refine ⟨by rw [b1, a1]; push_cast; ring, b2, fun h => b3 (a3 h), ?_, le_trans b5 a5, fun h => b6 (a6 h)⟩
  calc |c.num| ≤ |b.num| * Y := b4
    _ ≤ (|a.num| * X) * Y := mul_le_mul_of_nonneg_right a4 (by positivity)
    _ = _ := by push_cast; ring

theorem mul_bound_trans {c c' : Rational} {X Y : Nat} {M : Int} (h : Scaled c X c')
    (hM : |c.num| * ((X * Y : Nat) : Int) ≤ M) : |c'.num| * (Y : Int) ≤ M := by
  refine le_trans ?_ hM
  push_cast
  rw [← mul_assoc]
  exact mul_le_mul_of_nonneg_right h.2.2.2.1 (by positivity)

namespace Real

variable {env : Env} {B : Nat} {D : Prop}

theorem stripVals_sat (hg : env.Good B) (k : Nat) (vs : List Nat) (hv : ∀ v ∈ vs, 0 < v ∧ v ≤ B) (R : Nat)
    (c : Rational) (hR : 0 < R) (hb : R * vs.prod ^ k ≤ B) (hc : c.den ≠ 0)
    (hD : D → |c.num| * (vs.prod : Nat) ≤ env.M ∧ |c.den| ≤ env.M) :
    (stripVals env k vs ((R * vs.prod ^ k : Nat) : Int) c).Sat D fun o =>
      o.1 = R ∧ Scaled c vs.prod o.2 := by
  induction vs generalizing c with
  | nil => exact .ok ⟨by simp, by simpa using Scaled.refl c hc⟩
  | cons i is ih =>
    obtain ⟨hi, hiB⟩ := hv i (by simp)
    have hv' : ∀ v ∈ is, 0 < v ∧ v ≤ B := fun v h => hv v (List.mem_cons_of_mem _ h)
    have hpos : 0 < is.prod := List.prod_pos fun v h => (hv' v h).1
    have e1 : ((R * (i :: is).prod ^ k : Nat) : Int) = (i : Int) ^ k * ((R * is.prod ^ k : Nat) : Int) := by
      rw [List.prod_cons, mul_pow]; push_cast; ring
    have hp0 : 0 < R * (i :: is).prod ^ k := by
      rw [List.prod_cons]; positivity
    have hle : R * is.prod ^ k ≤ B := by
      refine le_trans ?_ hb
      rw [List.prod_cons, mul_pow]
      refine Nat.mul_le_mul_left R (Nat.le_mul_of_pos_left _ (by positivity))
    unfold stripVals
    rw [hg.exact.divPow _ i _ k (by exact_mod_cast hp0) (hg.le53 hb) (by exact_mod_cast hi) e1, Res.bind_ok,
      Rational.ofInt_eq env.M i (by rw [abs_of_nonneg (by positivity)]; exact hg.leM hiB) hg.M1, Res.bind_ok]
    refine .bind ((Rational.mulInt_sat c i hc hi (hg.leM hiB)).weaken ?_) ?_
    · intro d
      obtain ⟨h1, h2⟩ := hD d
      refine ⟨le_trans ?_ h1, h2⟩
      refine mul_le_mul_of_nonneg_left ?_ (abs_nonneg _)
      rw [List.prod_cons]
      exact_mod_cast Nat.le_mul_of_pos_right i hpos
    · intro c' _ h
      have hs : Scaled c i c' := h
      refine (ih hv' c' hle hs.2.1 ?_).mono ?_
      · intro d
        obtain ⟨h1, h2⟩ := hD d
        exact ⟨mul_bound_trans hs (by rw [List.prod_cons] at h1; exact h1), le_trans hs.2.2.2.2.1 h2⟩
      · rintro o ⟨h1, h2⟩
        exact ⟨h1, by rw [List.prod_cons]; exact hs.trans h2⟩

theorem stripWhile_sat (hg : env.Good B) (k : Nat) (hk : 0 < k) (vs : List Nat)
    (hv : ∀ v ∈ vs, 0 < v ∧ v ≤ B) (f e : Nat) (hf : e < f) (R : Nat)
    (c : Rational) (hR : 0 < R) (hb : R * vs.prod ^ e ≤ B) (hc : c.den ≠ 0)
    (hD : D → |c.num| * (vs.prod ^ (e / k) : Nat) ≤ env.M ∧ |c.den| ≤ env.M) :
    (stripWhile env k vs f e ((R * vs.prod ^ e : Nat) : Int) c).Sat D fun o =>
      o.1 = ((R * vs.prod ^ (e % k) : Nat) : Int) ∧ Scaled c (vs.prod ^ (e / k)) o.2 := by
  induction f generalizing e c with
  | zero => omega
  | succ f ih =>
    have hpos : 0 < vs.prod := List.prod_pos fun v h => (hv v h).1
    unfold stripWhile
    split
    · rename_i hek
      have hek : k ≤ e := hek
      have e1 : R * vs.prod ^ e = (R * vs.prod ^ (e - k)) * vs.prod ^ k := by
        rw [mul_assoc, ← pow_add, Nat.sub_add_cancel hek]
      have e2 : e / k = (e - k) / k + 1 := by
        rw [← Nat.add_div_right _ hk, Nat.sub_add_cancel hek]
      have e3 : e % k = (e - k) % k := by
        rw [← Nat.add_mod_right (e - k) k, Nat.sub_add_cancel hek]
      rw [e1] at hb ⊢
      refine .bind (stripVals_sat hg k vs hv (R * vs.prod ^ (e - k)) c (by positivity) hb hc ?_) ?_
      · intro d
        obtain ⟨h1, h2⟩ := hD d
        refine ⟨le_trans (mul_le_mul_of_nonneg_left ?_ (abs_nonneg _)) h1, h2⟩
        rw [e2, pow_succ]
        exact_mod_cast Nat.le_mul_of_pos_left _ (by positivity)
      · rintro ⟨rad', c'⟩ _ ⟨h1, hs⟩
        simp only at h1 hs ⊢
        subst h1
        refine (ih (e - k) (by omega) c' ?_ hs.2.1 ?_).mono ?_
        · exact le_trans (Nat.le_mul_of_pos_right _ (by positivity)) hb
        · intro d
          obtain ⟨h1, h2⟩ := hD d
          refine ⟨mul_bound_trans hs ?_, le_trans hs.2.2.2.2.1 h2⟩
          rw [e2, pow_succ, mul_comm (vs.prod ^ _)] at h1
          exact h1
        · rintro o ⟨h1, h2⟩
          rw [e3, e2, pow_succ, mul_comm (vs.prod ^ _)]
          exact ⟨h1, hs.trans h2⟩
    · rename_i hek
      have hek : e < k := Nat.lt_of_not_le hek
      rw [Nat.mod_eq_of_lt hek, Nat.div_eq_of_lt hek]
      exact .ok ⟨rfl, by simpa using Scaled.refl c hc⟩

theorem prodF_pos {f : Nat → Nat} {l : List (Nat × Nat)} (h : ∀ r ∈ l, 0 < r.2) : 0 < prodF f l := by
  refine List.prod_pos fun x hx => ?_
  obtain ⟨r, hr, rfl⟩ := List.mem_map.1 hx
  exact Nat.pow_pos (h r hr)

theorem stripAll_sat (hg : env.Good B) (k : Nat) (hk : 0 < k) (m : FMap)
    (hv : ∀ r ∈ pairs m, 0 < r.2 ∧ r.2 ≤ B) (R : Nat)
    (c : Rational) (hR : 0 < R) (hb : R * prodF id (pairs m) ≤ B) (hc : c.den ≠ 0)
    (hD : D → |c.num| * (prodF (· / k) (pairs m) : Nat) ≤ env.M ∧ |c.den| ≤ env.M) :
    (stripAll env k m ((R * prodF id (pairs m) : Nat) : Int) c).Sat D fun o =>
      o.1 = ((R * prodF (· % k) (pairs m) : Nat) : Int) ∧ Scaled c (prodF (· / k) (pairs m)) o.2 := by
  induction m generalizing c R with
  | nil => exact .ok ⟨by simp, by simpa using Scaled.refl c hc⟩
  | cons r t ih =>
    obtain ⟨e, vs⟩ := r
    have hv1 : ∀ v ∈ vs, 0 < v ∧ v ≤ B := fun v h => hv (e, v) (by rw [pairs_cons]; simp [h])
    have hv2 : ∀ r ∈ pairs t, 0 < r.2 ∧ r.2 ≤ B := fun r h => hv r (by rw [pairs_cons]; simp [h])
    have hpos : 0 < vs.prod := List.prod_pos fun v h => (hv1 v h).1
    have hposT : ∀ f, 0 < prodF f (pairs t) := fun f => prodF_pos fun r h => (hv2 r h).1
    simp only [pairs_cons, prodF_append, prodF_vals, id] at hb hD ⊢
    unfold stripAll
    have e1 : R * (vs.prod ^ e * prodF id (pairs t)) = (R * prodF id (pairs t)) * vs.prod ^ e := by ring
    rw [e1] at hb ⊢
    have := hposT id
    have := hposT (· / k)
    refine .bind (stripWhile_sat hg k hk vs hv1 (e + 1) e (by omega) (R * prodF id (pairs t)) c (by positivity) hb hc ?_) ?_
    · intro d
      obtain ⟨h1, h2⟩ := hD d
      refine ⟨le_trans (mul_le_mul_of_nonneg_left ?_ (abs_nonneg _)) h1, h2⟩
      exact_mod_cast Nat.le_mul_of_pos_right _ (hposT _)
    · rintro ⟨rad', c'⟩ _ ⟨h1, hs⟩
      simp only at h1 hs ⊢
      subst h1
      have e3 : R * prodF id (pairs t) * vs.prod ^ (e % k) = (R * vs.prod ^ (e % k)) * prodF id (pairs t) := by ring
      rw [e3]
      refine (ih hv2 (R * vs.prod ^ (e % k)) c' (by positivity) ?_ hs.2.1 ?_).mono ?_
      · rw [← e3]
        exact le_trans (Nat.mul_le_mul_left _ (Nat.pow_le_pow_right hpos (Nat.mod_le _ _))) hb
      · intro d
        obtain ⟨h1, h2⟩ := hD d
        exact ⟨mul_bound_trans hs h1, le_trans hs.2.2.2.2.1 h2⟩
      · rintro o ⟨h1, h2⟩
        refine ⟨by rw [h1]; push_cast; ring, hs.trans h2⟩

/-! ### lowering the index -/

theorem rebuildVals_ok (hg : env.Good B) (j : Nat) (vs : List Nat) (hv : ∀ v ∈ vs, 0 < v) (R : Nat)
    (hR : 0 < R) (hb : R * vs.prod ^ j ≤ B) :
    rebuildVals env j vs R = .ok ((R * vs.prod ^ j : Nat) : Int) := by
  induction vs generalizing R with
  | nil => simp [rebuildVals]
  | cons i is ih =>
    have hv' : ∀ v ∈ is, 0 < v := fun v h => hv v (List.mem_cons_of_mem _ h)
    have hi : 0 < i := hv i (by simp)
    have hpos : 0 < is.prod := List.prod_pos hv'
    have e1 : R * (i :: is).prod ^ j = (R * i ^ j) * is.prod ^ j := by
      rw [List.prod_cons, mul_pow]; ring
    rw [e1] at hb ⊢
    have hle : R * i ^ j ≤ B := le_trans (Nat.le_mul_of_pos_right _ (by positivity)) hb
    have h53 := hg.le53 hle
    unfold rebuildVals
    rw [hg.exact.mulPow R i j (by exact_mod_cast hR) (by exact_mod_cast hi) (by exact_mod_cast h53), Res.bind_ok]
    have := ih hv' (R * i ^ j) (by positivity) hb
    push_cast at this ⊢
    exact this

theorem rebuild_ok (hg : env.Good B) (g : Nat) (m : FMap) (hv : ∀ r ∈ pairs m, 0 < r.2) (R : Nat)
    (hR : 0 < R) (hb : R * prodF (· / g) (pairs m) ≤ B) :
    rebuild env g m R = .ok ((R * prodF (· / g) (pairs m) : Nat) : Int) := by
  induction m generalizing R with
  | nil => simp [rebuild]
  | cons r t ih =>
    obtain ⟨e, vs⟩ := r
    have hv1 : ∀ v ∈ vs, 0 < v := fun v h => hv (e, v) (by rw [pairs_cons]; simp [h])
    have hv2 : ∀ r ∈ pairs t, 0 < r.2 := fun r h => hv r (by rw [pairs_cons]; simp [h])
    have hpos : 0 < vs.prod := List.prod_pos hv1
    have hposT : 0 < prodF (· / g) (pairs t) := prodF_pos hv2
    simp only [pairs_cons, prodF_append, prodF_vals] at hb ⊢
    rw [← mul_assoc] at hb ⊢
    unfold rebuild
    rw [rebuildVals_ok hg (e / g) vs hv1 R hR (le_trans (Nat.le_mul_of_pos_right _ hposT) hb), Res.bind_ok]
    exact ih hv2 _ (by positivity) hb

theorem foldl_gcd_dvd (m : FMap) (g0 : Nat) (d : Nat) :
    d ∣ m.foldl (fun g r => Nat.gcd r.1 g) g0 ↔ (d ∣ g0 ∧ ∀ r ∈ m, d ∣ r.1) := by
  induction m generalizing g0 with
  | nil => simp
  | cons r t ih =>
    simp only [List.foldl_cons, List.mem_cons, forall_eq_or_imp]
    rw [ih, Nat.dvd_gcd_iff]
    tauto

/-- `g_exp`: greatest common divisor of the index and the multiplicities. -/
theorem gExp_dvd (env : Env) (k A : Nat) (hA : 1 < A) (d : Nat) :
    d ∣ gExp env k (decN A) ↔ (d ∣ k ∧ ∀ p, d ∣ A.factorization p) := by
  have hne : decN A ≠ [] := by
    intro h
    obtain ⟨p, hp, hd⟩ := Nat.exists_prime_and_dvd (n := A) (by omega)
    obtain ⟨vs, hvs⟩ := key_of_prime (n := A) (p := p) (by
      have := (hp.dvd_iff_one_le_factorization (by omega)).1 hd; omega)
    rw [h] at hvs; simp at hvs
  unfold gExp
  obtain ⟨r, t, e⟩ := List.exists_cons_of_ne_nil hne
  simp only
  rw [Nat.dvd_gcd_iff, foldl_gcd_dvd]
  constructor
  · rintro ⟨h1, -, h2⟩
    refine ⟨h1, fun p => ?_⟩
    by_cases h0 : A.factorization p = 0
    · rw [h0]; exact dvd_zero _
    · obtain ⟨vs, hvs⟩ := key_of_prime h0
      exact h2 _ hvs
  · rintro ⟨h1, h2⟩
    have h3 : ∀ r ∈ decN A, d ∣ r.1 := by
      intro r hr
      obtain ⟨p, -, e, -⟩ := key_decN hr
      rw [e]; exact h2 p
    refine ⟨h1, ?_, h3⟩
    rw [e]
    exact h3 r (by rw [e]; simp)

theorem decN_one : decN 1 = [] := by simp [decN, runLoop]

/-- greatest common divisor of `k` and the multiplicities of the primes of `A`. -/
def gE (k A : Nat) : Nat := Nat.gcd k ((decN A).foldl (fun g r => Nat.gcd r.1 g) 0)

theorem gE_dvd (k A d : Nat) : d ∣ gE k A ↔ (d ∣ k ∧ ∀ p, d ∣ A.factorization p) := by
  unfold gE
  rw [Nat.dvd_gcd_iff, foldl_gcd_dvd]
  constructor
  · rintro ⟨h1, -, h2⟩
    refine ⟨h1, fun p => ?_⟩
    by_cases h0 : A.factorization p = 0
    · rw [h0]; exact dvd_zero _
    · obtain ⟨vs, hvs⟩ := key_of_prime h0
      exact h2 _ hvs
  · rintro ⟨h1, h2⟩
    refine ⟨h1, dvd_zero _, ?_⟩
    intro r hr
    obtain ⟨p, -, e, -⟩ := key_decN hr
    rw [e]; exact h2 p

theorem gE_pos {k A : Nat} (hk : 0 < k) : 0 < gE k A := Nat.gcd_pos_of_pos_left _ hk

theorem gE_one (k : Nat) : gE k 1 = k := by simp [gE, decN_one]

/-- the `gE`-th root of `A`. -/
def root (k A : Nat) : Nat := prodF (· / gE k A) (pairs (decN A))

theorem factorization_root (k A p : Nat) : (root k A).factorization p = A.factorization p / gE k A :=
  factorization_prodF A _ (by simp) p

theorem root_pos (k A : Nat) : 0 < root k A :=
  prodF_pos fun r h => (mem_pairs_decN h).1.pos

theorem root_pow {k A : Nat} (hA : 0 < A) : root k A ^ gE k A = A := by
  refine Nat.eq_of_factorization_eq (pow_ne_zero _ (root_pos k A).ne') hA.ne' fun p => ?_
  rw [Nat.factorization_pow, Finsupp.smul_apply, smul_eq_mul, factorization_root]
  exact Nat.mul_div_cancel' (((gE_dvd k A _).1 dvd_rfl).2 p)

theorem root_one (k : Nat) : root k 1 = 1 := by simp [root, decN_one]

theorem root_le {k A : Nat} (hk : 0 < k) (hA : 0 < A) : root k A ≤ A := by
  conv_rhs => rw [← root_pow (k := k) hA]
  exact Nat.le_self_pow (gE_pos hk).ne' _

theorem root_eq_one {k A : Nat} (hA : 0 < A) (h : root k A = 1) : A = 1 := by
  rw [← root_pow (k := k) hA, h, one_pow]

/-- the last part of `normalize` (num.hpp 567-596). -/
def tail (env : Env) (index : Nat) (fs : FMap) (radicand coe : Rational) : Res Real := do
  let g := gExp env index fs
  let (radicand, index) ← (if g ≠ 1 then do
      let rad ← rebuild env g fs 1
      let radicand ← Rational.ofInt env.M rad
      .ok (radicand, index / g)
    else .ok (radicand, index) : Res (Rational × Nat))
  let isOne ← Rational.eqInt env.M radicand 1
  let index := if isOne then 1 else index
  let isZero ← Rational.eqInt env.M coe 0
  if isZero then do
    let one ← Rational.ofInt env.M 1
    .ok ⟨1, one, coe⟩
  else .ok ⟨index, radicand, coe⟩

theorem eqInt_one (hg : env.Good B) (n : Nat) (hn : n ≤ B) :
    Rational.eqInt env.M ⟨n, 1⟩ 1 = .ok (decide (n = 1)) := by
  rw [Rational.eqInt_spec env.M ⟨n, 1⟩ 1 hg.M1 (by norm_num)
    ⟨by rw [abs_of_nonneg (by positivity)]; exact hg.leM hn, by simpa using hg.M1⟩]
  simp

theorem tail_eq (hg : env.Good B) (k A : Nat) (hk : 0 < k) (hA : 0 < A) (hB : A ≤ B) (coe : Rational) :
    tail env k (decN A) ⟨A, 1⟩ coe = (do
      let z ← Rational.eqInt env.M coe 0
      .ok (if z then ⟨1, ⟨1, 1⟩, coe⟩ else ⟨k / gE k A, ⟨root k A, 1⟩, coe⟩)) := by
  have hone : Rational.ofInt env.M 1 = .ok ⟨1, 1⟩ := Rational.ofInt_eq env.M 1 (by simpa using hg.M1) hg.M1
  have fin : ∀ (i : Nat) (x : Nat), x ≤ B → (do
      let isOne ← Rational.eqInt env.M ⟨x, 1⟩ 1
      let index := if isOne then 1 else i
      let isZero ← Rational.eqInt env.M coe 0
      if isZero then do
        let one ← Rational.ofInt env.M 1
        .ok (⟨1, one, coe⟩ : Real)
      else .ok ⟨index, ⟨x, 1⟩, coe⟩) = (do
      let z ← Rational.eqInt env.M coe 0
      .ok (if z then ⟨1, ⟨1, 1⟩, coe⟩ else ⟨if x = 1 then 1 else i, ⟨x, 1⟩, coe⟩)) := by
    intro i x hx
    rw [eqInt_one hg x hx, hone]
    simp only [Res.bind_ok]
    refine congrArg _ (funext fun z => ?_)
    cases z <;> simp
  unfold tail
  by_cases h1 : A = 1
  · subst h1
    rw [decN_one, gE_one, root_one, Nat.div_self hk]
    simp only [rebuild]
    rw [show Rational.ofInt env.M 1 = .ok ⟨1, 1⟩ from hone]
    simp only [Res.bind_ok]
    by_cases hgx : gExp env k [] ≠ 1
    · rw [if_pos hgx]
      have := fin (k / gExp env k []) 1 hB
      simp only [hone, Res.bind_ok] at this ⊢
      simpa using this
    · rw [if_neg hgx]
      have := fin k 1 hB
      rw [hone] at this
      simpa using this
  · have hge : gExp env k (decN A) = gE k A := by
      refine Nat.dvd_antisymm ?_ ?_
      · rw [gE_dvd]; exact (gExp_dvd env k A (by omega) _).1 dvd_rfl
      · rw [gExp_dvd env k A (by omega)]; exact (gE_dvd k A _).1 dvd_rfl
    rw [hge]
    have hr1 : root k A ≠ 1 := fun h => h1 (root_eq_one hA h)
    have hrB : root k A ≤ B := le_trans (root_le hk hA) hB
    simp only
    split
    · have := rebuild_ok hg (gE k A) (decN A) (fun r h => (mem_pairs_decN h).1.pos) 1 (by omega)
        (by rw [one_mul]; exact hrB)
      rw [one_mul] at this
      rw [show ((1 : Nat) : Int) = 1 from rfl] at this
      rw [this, Res.bind_ok, show prodF (· / gE k A) (pairs (decN A)) = root k A from rfl,
        Rational.ofInt_eq env.M (root k A) (by rw [abs_of_nonneg (by positivity)]; exact hg.leM hrB) hg.M1]
      simp only [Res.bind_ok]
      rw [fin _ _ hrB, if_neg hr1]
    · rename_i hg1
      have hg1 : gE k A = 1 := by simpa using hg1
      have hrA : root k A = A := by
        have := root_pow (k := k) hA; rwa [hg1, pow_one] at this
      simp only [Res.bind_ok]
      rw [fin _ _ hB, if_neg h1, hg1, Nat.div_one, hrA]

/-- the `k`-th-power-free part and the factor taken out. -/
def free (k n : Nat) : Nat := prodF (· % k) (pairs (decN n))
/-- the factor taken out of the root. -/
def outer (k n : Nat) : Nat := prodF (· / k) (pairs (decN n))

theorem free_pos (k n : Nat) : 0 < free k n := prodF_pos fun r h => (mem_pairs_decN h).1.pos
theorem outer_pos (k n : Nat) : 0 < outer k n := prodF_pos fun r h => (mem_pairs_decN h).1.pos

theorem free_outer {k n : Nat} (hn : 0 < n) : free k n * outer k n ^ k = n := by
  have h1 : ∀ l : List (Nat × Nat), prodF (· % k) l * prodF (· / k) l ^ k = prodF id l := by
    intro l
    induction l with
    | nil => simp
    | cons r t ih =>
      have e : ∀ f, prodF f (r :: t) = r.2 ^ f r.1 * prodF f t := fun f => by simp [prodF]
      rw [e, e, e, ← ih, mul_pow, id]
      conv_rhs => rw [← Nat.mod_add_div r.1 k, pow_add, mul_comm k, pow_mul]
      ring
  unfold free outer
  rw [h1, prodF_decN_id n hn.ne']

theorem factorization_free (k n p : Nat) : (free k n).factorization p = n.factorization p % k :=
  factorization_prodF n _ (by simp) p

theorem free_le {k n : Nat} (hn : 0 < n) : free k n ≤ n := by
  conv_rhs => rw [← free_outer (k := k) hn]
  exact Nat.le_mul_of_pos_right _ (Nat.pow_pos (outer_pos k n))

theorem outer_le {k n : Nat} (hk : 0 < k) (hn : 0 < n) : outer k n ≤ n := by
  conv_rhs => rw [← free_outer (k := k) hn]
  exact le_trans (Nat.le_self_pow hk.ne' _) (Nat.le_mul_of_pos_left _ (free_pos k n))

/-- the result of `normalize` for the radicand `n`, up to the coefficient. -/
theorem simplest_root {k n : Nat} (hk : 0 < k) :
    Simplest (root k (free k n)) (k / gE k (free k n)) := by
  set A := free k n
  have hgp : 0 < gE k A := gE_pos hk
  have hgk : gE k A ∣ k := ((gE_dvd k A _).1 dvd_rfl).1
  have hgv : ∀ p, gE k A ∣ A.factorization p := ((gE_dvd k A _).1 dvd_rfl).2
  refine (simplest_iff _ _ (root_pos _ _) (Nat.div_pos (Nat.le_of_dvd hk hgk) hgp)).2 ⟨?_, ?_⟩
  · intro p _
    rw [factorization_root]
    refine Nat.div_lt_div_of_lt_of_dvd hgk ?_
    rw [factorization_free]
    exact Nat.mod_lt _ hk
  · intro d h1 h2
    have : gE k A * d ∣ gE k A := by
      rw [gE_dvd]
      refine ⟨(Nat.dvd_div_iff_mul_dvd hgk).1 h1, fun p => ?_⟩
      have := h2 p
      rw [factorization_root] at this
      exact (Nat.dvd_div_iff_mul_dvd (hgv p)).1 this
    exact Nat.dvd_one.1 ((Nat.mul_dvd_mul_iff_left hgp).1 (by simpa using this))

/-- `normalize` for an integral radicand. -/
def normInt (env : Env) (k n : Nat) (coe : Rational) : Res Real := do
  let fs ← decompose env n
  let (rad, coe) ← stripAll env k fs n coe
  let (radicand, fs) ← (if rad ≠ (n : Int) then do
      let fs ← decompose env rad
      .ok (⟨rad, 1⟩, fs)
    else .ok (⟨n, 1⟩, fs) : Res (Rational × FMap))
  tail env k fs radicand coe

theorem decompose_ok (hg : env.Good B) (n : Nat) (hn : 0 < n) (hB : n ≤ B) : decompose env n = .ok (decN n) := by
  unfold decompose
  rw [hg.hfac n hn hB]
  rfl

/-- the coefficient part, and the result. -/
theorem normInt_eq (hg : env.Good B) (k n : Nat) (hk : 0 < k) (hn : 0 < n) (hB : n ≤ B) (coe : Rational) :
    normInt env k n coe = (do
      let (rad, coe) ← stripAll env k (decN n) n coe
      let (radicand, fs) ← (if rad ≠ (n : Int) then do
          let fs ← decompose env rad
          .ok (⟨rad, 1⟩, fs)
        else .ok (⟨n, 1⟩, decN n) : Res (Rational × FMap))
      tail env k fs radicand coe) := by
  unfold normInt
  rw [decompose_ok hg n hn hB]
  rfl

theorem normInt_sat (hg : env.Good B) (k n : Nat) (hk : 0 < k) (hn : 0 < n) (hB : n ≤ B) (coe : Rational)
    (hc : coe.den ≠ 0) :
    (normInt env k n coe).Sat (|coe.num| * outer k n ≤ env.M ∧ |coe.den| ≤ env.M) fun r =>
      ∃ c', Scaled coe (outer k n) c' ∧
        r = if c'.num = 0 then ⟨1, ⟨1, 1⟩, c'⟩
          else ⟨k / gE k (free k n), ⟨root k (free k n), 1⟩, c'⟩ := by
  rw [normInt_eq hg k n hk hn hB]
  have hs := stripAll_sat (D := |coe.num| * outer k n ≤ env.M ∧ |coe.den| ≤ env.M) hg k hk (decN n)
    (fun r h => by
      obtain ⟨p, hp⟩ := mem_pairs_decN h
      refine ⟨p.pos, ?_⟩
      have := (pairs_decN_perm n).mem_iff.1 h
      obtain ⟨q, hq, rfl⟩ := List.mem_map.1 this
      exact le_trans (Nat.le_of_mem_primeFactors (Finset.mem_toList.1 hq)) hB) 1 coe (by omega)
    (by rw [one_mul, prodF_decN_id n hn.ne']; exact hB) hc id
  rw [one_mul, one_mul, prodF_decN_id n hn.ne'] at hs
  refine .bind hs ?_
  rintro ⟨rad, c'⟩ _ ⟨h1, h2⟩
  simp only at h1 h2 ⊢
  have h1 : rad = (free k n : Int) := h1
  have hfB : free k n ≤ B := le_trans (free_le hn) hB
  subst h1
  have key : (if ((free k n : Nat) : Int) ≠ (n : Int) then do
          let fs ← decompose env (free k n : Nat)
          .ok (⟨(free k n : Nat), 1⟩, fs)
        else .ok (⟨n, 1⟩, decN n) : Res (Rational × FMap)) = .ok (⟨(free k n : Nat), 1⟩, decN (free k n)) := by
    split
    · rw [decompose_ok hg _ (free_pos k n) hfB]; rfl
    · rename_i h
      have h : free k n = n := by simpa using h
      rw [h]
  rw [key, Res.bind_ok]
  simp only
  rw [tail_eq hg k _ hk (free_pos k n) hfB]
  have hz : (Rational.eqInt env.M c' 0).Sat (|coe.num| * outer k n ≤ env.M ∧ |coe.den| ≤ env.M) fun b =>
      b = decide (c'.num = 0) := by
    have hclean : (Rational.eqInt env.M c' 0).Clean := by
      unfold Rational.eqInt Rational.eq
      exact .bind (Rational.ofInt_clean _ _) fun _ _ => .bind (Rational.cross_clean _ _ _) fun _ _ => .ok _
    refine .of_clean hclean ?_ ?_
    · intro b hb
      unfold Rational.eqInt at hb
      rw [Rational.ofInt_eq env.M 0 (by simpa using le_trans (by norm_num) hg.M1) hg.M1, Res.bind_ok] at hb
      unfold Rational.eq at hb
      obtain ⟨⟨x, y⟩, h3, h4⟩ := Res.bind_eq_ok.1 hb
      obtain ⟨e1, e2⟩ := Rational.cross_spec h3
      simp only [mul_one, zero_mul] at e1 e2
      subst e1 e2
      injection h4 with h4
      exact h4.symm
    · intro d
      obtain ⟨d1, d2⟩ := d
      exact ⟨_, Rational.eqInt_spec env.M c' 0 hg.M1 (by norm_num)
        ⟨le_trans h2.2.2.2.1 d1, le_trans h2.2.2.2.2.1 d2⟩⟩
  refine .bind hz ?_
  rintro b _ rfl
  refine .ok ⟨c', h2, ?_⟩
  by_cases h0 : c'.num = 0 <;> simp [h0]

end Real
end Symxx.Num

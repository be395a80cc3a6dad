import Verif.Frac.Surd
/-!
# Products of roots
-/
namespace Symxx.Num
namespace Real
variable {env : Env} {B : Nat}

/-- multiplying a normal form with a rational number. -/
theorem mul_rat_canon (hg : env.Good B) (hB : 1 ≤ B) {i N : Nat} {c c' k : Rational} (hr : Canon ⟨i, ⟨N, 1⟩, c'⟩)
    (hi : i ≤ 2 ^ 53) (hN : N ≤ B) (hf : c'.Fits env.M) (he : Rational.mul env.M c k = .ok c') :
    mul env ⟨i, ⟨N, 1⟩, c⟩ (ofRat k) = .ok ⟨i, ⟨N, 1⟩, c'⟩ := by
  have hp := hg.powOk hB
  have hM := hp.hM
  have hM53 := hp.hM53
  have hi0 : 0 < i := by obtain ⟨_, -, sm, -⟩ := hr; exact sm.2.1
  have hN53 : (N : Int) ≤ 2 ^ 53 := by exact_mod_cast hg.le53 hN
  have hNM : |(N : Int)| ≤ env.M := by rw [abs_of_nonneg (by positivity)]; exact le_trans hN53 hM53
  have ri : ∀ j : Nat, j ≤ 2 ^ 53 → ratOfIndex env j = .ok ⟨j, 1⟩ := by
    intro j hj
    have hj' : |(j : Int)| ≤ env.M := by
      rw [abs_of_nonneg (by positivity)]
      exact le_trans (by exact_mod_cast hj) hM53
    unfold ratOfIndex
    rw [wrap_of_range (inRange_of_abs hj'), Rational.ofInt_eq _ _ hj' hM]
  unfold mul lcmU ofRat
  simp only
  rw [Nat.lcm_one_right, if_pos (by
    have : (i : Int) ≤ 2 ^ 53 := by exact_mod_cast hi
    omega), Res.bind_ok, if_neg (by omega), Nat.div_self hi0, Nat.div_one, ri 1 (by norm_num), Res.bind_ok,
    Rational.pow_low hp one_ne_zero one_pos (by simp) (by norm_num) (by rw [pow_one, abs_of_nonneg (by positivity)]; exact hN53) (by norm_num),
    Res.bind_ok, ri i hi, Res.bind_ok,
    Rational.pow_low hp hi0.ne' one_pos (by simp) (by exact_mod_cast hi) (by simp) (by simp), Res.bind_ok]
  simp only [one_pow, pow_one]
  rw [Rational.mul_int hM hNM (by simpa using hM) (by rwa [mul_one]), Res.bind_ok, he, Res.bind_ok, mul_one]
  exact normalize_canon hg hr (by show (N : Int) ≤ B; exact_mod_cast hN) hf

/-- the product of two roots with integers before them (of any sign, or zero). -/
theorem mul_any (hg : env.Good B) (hB : 1 ≤ B) {i j N K : Nat} {a c : Int} (si : Simplest N i) (sj : Simplest K j)
    (aM : |a| ≤ env.M) (cM : |c| ≤ env.M) (hL : Nat.lcm i j ≤ 2 ^ 53)
    (hR : N ^ (Nat.lcm i j / i) * K ^ (Nat.lcm i j / j) ≤ B)
    (hA : |a * c| * (outer (Nat.lcm i j) (N ^ (Nat.lcm i j / i) * K ^ (Nat.lcm i j / j)) : Nat) ≤ env.M) :
    ∃ (A : Int) (i' N' : Nat), mul env ⟨i, ⟨N, 1⟩, ⟨a, 1⟩⟩ ⟨j, ⟨K, 1⟩, ⟨c, 1⟩⟩ = .ok ⟨i', ⟨N', 1⟩, ⟨A, 1⟩⟩ ∧ Simplest N' i' ∧ (A = 0 → N' = 1) ∧
      A = a * c * (outer (Nat.lcm i j) (N ^ (Nat.lcm i j / i) * K ^ (Nat.lcm i j / j)) : Nat) ∧ i' ∣ Nat.lcm i j ∧
      N' ^ (Nat.lcm i j / i') ≤ N ^ (Nat.lcm i j / i) * K ^ (Nat.lcm i j / j) ∧
      (A : ℝ) * (N' : ℝ) ^ ((1 : ℝ) / i') = (a : ℝ) * (N : ℝ) ^ ((1 : ℝ) / i) * (c * (K : ℝ) ^ ((1 : ℝ) / j)) := by
  have hp := hg.powOk hB
  have hM := hp.hM
  have hM53 := hp.hM53
  have hi0 := si.2.1
  have hj0 := sj.2.1
  obtain ⟨u, hu⟩ := Nat.dvd_lcm_left i j
  obtain ⟨w, hw⟩ := Nat.dvd_lcm_right i j
  have hL0 : 0 < Nat.lcm i j := Nat.lcm_pos hi0 hj0
  generalize hLe : Nat.lcm i j = L at *
  have eu : L / i = u := by rw [hu]; exact Nat.mul_div_cancel_left _ hi0
  have ew : L / j = w := by rw [hw]; exact Nat.mul_div_cancel_left _ hj0
  rw [eu, ew] at hR hA ⊢
  have hu0 : 0 < u := Nat.pos_of_ne_zero (by rintro rfl; simp at hu; omega)
  have hw0 : 0 < w := Nat.pos_of_ne_zero (by rintro rfl; simp at hw; omega)
  have hu53 : u ≤ 2 ^ 53 := le_trans (by rw [hu]; exact Nat.le_mul_of_pos_left _ hi0) hL
  have hw53 : w ≤ 2 ^ 53 := le_trans (by rw [hw]; exact Nat.le_mul_of_pos_left _ hj0) hL
  have pN : 0 < N ^ u := pow_pos si.1 u
  have pK : 0 < K ^ w := pow_pos sj.1 w
  have hNB : N ^ u ≤ B := le_trans (Nat.le_mul_of_pos_right _ pK) hR
  have hKB : K ^ w ≤ B := le_trans (Nat.le_mul_of_pos_left _ pN) hR
  have hN53 : ((N : Int) ^ u) ≤ 2 ^ 53 := by exact_mod_cast hg.le53 hNB
  have hK53 : ((K : Int) ^ w) ≤ 2 ^ 53 := by exact_mod_cast hg.le53 hKB
  have hR53 : ((N ^ u * K ^ w : Nat) : Int) ≤ 2 ^ 53 := by exact_mod_cast hg.le53 hR
  have hRp : 0 < N ^ u * K ^ w := Nat.mul_pos pN pK
  have hRp' : (1 : Int) ≤ ((N ^ u * K ^ w : Nat) : Int) := by exact_mod_cast hRp
  have op : (0 : Int) < outer L (N ^ u * K ^ w) := by exact_mod_cast outer_pos L _
  have hac : |a * c| ≤ env.M := le_trans (le_mul_of_one_le_right (abs_nonneg _) op) hA
  have ri : ∀ j : Nat, j ≤ 2 ^ 53 → ratOfIndex env j = .ok ⟨j, 1⟩ := by
    intro j hj
    have hj' : |(j : Int)| ≤ env.M := by
      rw [abs_of_nonneg (by positivity)]
      exact le_trans (by exact_mod_cast hj) hM53
    unfold ratOfIndex
    rw [wrap_of_range (inRange_of_abs hj'), Rational.ofInt_eq _ _ hj' hM]
  have ab : ∀ z : Nat, (z : Int) ≤ 2 ^ 53 → |(z : Int)| ≤ env.M := fun z hz => by
    rw [abs_of_nonneg (by positivity)]; exact le_trans hz hM53
  have hdf : |(⟨a * c, 1⟩ : Rational).num| * outer L (N ^ u * K ^ w) ≤ env.M ∧ |(⟨a * c, 1⟩ : Rational).den| ≤ env.M := by
    refine ⟨?_, by simpa using hM⟩
    show |a * c| * _ ≤ _
    exact hA
  obtain ⟨r, hr, c', hs, er⟩ := (normInt_sat hg L (N ^ u * K ^ w) hL0 hRp hR ⟨a * c, 1⟩ one_ne_zero).defined hdf
  have nf : NormOf _ _ r := (normInt_norm hg L (N ^ u * K ^ w) hL0 hRp hR ⟨a * c, 1⟩ one_ne_zero).post hr
  have hcc : r.coe = c' := by rw [er]; split <;> rfl
  obtain ⟨s1, s2, s3, s4, s5, s6⟩ := hs
  have s3 : 0 < c'.den := s3 one_pos
  have e1 : c'.den = 1 := by
    simp only [abs_one] at s5
    rw [abs_of_pos s3] at s5
    omega
  have nc := nf.canon
  have ni := nf.index
  have ns := nf.small
  have nv := nf.val
  rw [← normalize_int] at hr
  obtain ⟨k', rad, co⟩ := r
  obtain ⟨A, D⟩ := c'
  obtain ⟨N', e, sm, -, hz⟩ := nc
  simp only at e hcc e1 ni ns s1 s4 sm hz
  subst e hcc e1
  have hvA : (A : ℚ) = a * c * outer L (N ^ u * K ^ w) := by simpa [Rational.val] using s1
  have hvA' : A = a * c * outer L (N ^ u * K ^ w) := by exact_mod_cast hvA
  have v0 := val_mk k' N' 1 ⟨A, 1⟩
  have v1 := val_mk L (N ^ u * K ^ w) 1 ⟨a * c, 1⟩
  simp only [Nat.cast_one, div_one] at v0 v1
  have ns : (N' : Int) ^ (L / k') ≤ ((N ^ u * K ^ w : Nat) : Int) := ns
  refine ⟨A, k', N', ?_, sm, hz, ?_, ni, by exact_mod_cast ns, ?_⟩
  · unfold mul lcmU
    simp only
    rw [hLe, if_pos (by
      have : (L : Int) ≤ 2 ^ 53 := by exact_mod_cast hL
      omega), Res.bind_ok, if_neg (by omega), eu, ew, ri u hu53, Res.bind_ok,
      Rational.pow_low hp hu0.ne' one_pos (by simp) (by exact_mod_cast hu53) (by rw [abs_of_nonneg (by positivity)]; exact hN53) (by norm_num),
      Res.bind_ok, ri w hw53, Res.bind_ok,
      Rational.pow_low hp hw0.ne' one_pos (by simp) (by exact_mod_cast hw53) (by rw [abs_of_nonneg (by positivity)]; exact hK53) (by norm_num),
      Res.bind_ok]
    simp only [one_pow]
    rw [Rational.mul_int hM (by exact_mod_cast ab (N ^ u) (by exact_mod_cast hN53)) (by exact_mod_cast ab (K ^ w) (by exact_mod_cast hK53))
      (by exact_mod_cast ab _ hR53), Res.bind_ok, Rational.mul_int hM aM cM hac, Res.bind_ok]
    push_cast at hr
    exact hr
  · exact hvA'
  · have nv : Real.val ⟨k', ⟨N', 1⟩, ⟨A, 1⟩⟩ = Real.val ⟨L, ⟨(N ^ u * K ^ w : Nat), 1⟩, ⟨a * c, 1⟩⟩ := nv
    rw [v0, v1] at nv
    simp only [Rational.val, Int.cast_one, div_one, Rat.cast_intCast, Int.cast_mul, Rat.cast_mul] at nv
    rw [nv]
    have r1 := rpow_root (N := N) (A := N ^ u) (k := L) (g := u) hL0 (Dvd.intro_left _ hu.symm) rfl hu0
    have r2 := rpow_root (N := K) (A := K ^ w) (k := L) (g := w) hL0 (Dvd.intro_left _ hw.symm) rfl hw0
    rw [show L / u = i by rw [hu]; exact Nat.mul_div_cancel _ hu0] at r1
    rw [show L / w = j by rw [hw]; exact Nat.mul_div_cancel _ hw0] at r2
    rw [r1, r2]
    push_cast
    rw [Real.mul_rpow (by positivity) (by positivity)]
    ring

theorem mul_surds' (hg : env.Good B) (hB : 1 ≤ B) {i j N K : Nat} {a c : Int} (si : Simplest N i) (sj : Simplest K j)
    (ha : 0 < a) (hc : 0 < c) (hL : Nat.lcm i j ≤ 2 ^ 53)
    (hR : N ^ (Nat.lcm i j / i) * K ^ (Nat.lcm i j / j) ≤ B)
    (hA : a * c * (outer (Nat.lcm i j) (N ^ (Nat.lcm i j / i) * K ^ (Nat.lcm i j / j)) : Nat) ≤ env.M) :
    ∃ (A : Int) (i' N' : Nat), mul env ⟨i, ⟨N, 1⟩, ⟨a, 1⟩⟩ ⟨j, ⟨K, 1⟩, ⟨c, 1⟩⟩ = .ok ⟨i', ⟨N', 1⟩, ⟨A, 1⟩⟩ ∧ Simplest N' i' ∧ 0 < A ∧
      A = a * c * (outer (Nat.lcm i j) (N ^ (Nat.lcm i j / i) * K ^ (Nat.lcm i j / j)) : Nat) ∧ i' ∣ Nat.lcm i j ∧
      N' ^ (Nat.lcm i j / i') ≤ N ^ (Nat.lcm i j / i) * K ^ (Nat.lcm i j / j) ∧
      (A : ℝ) * (N' : ℝ) ^ ((1 : ℝ) / i') = (a : ℝ) * (N : ℝ) ^ ((1 : ℝ) / i) * (c * (K : ℝ) ^ ((1 : ℝ) / j)) := by
  have hca : 0 < a * c := mul_pos ha hc
  have op : (0 : Int) < outer (Nat.lcm i j) (N ^ (Nat.lcm i j / i) * K ^ (Nat.lcm i j / j)) := by exact_mod_cast outer_pos _ _
  have hac : a * c ≤ env.M := le_trans (le_mul_of_one_le_right (by positivity) op) hA
  obtain ⟨A, i', N', h1, h2, -, h4, h5, h6, h7⟩ := mul_any hg hB si sj (by rw [abs_of_pos ha]; nlinarith) (by rw [abs_of_pos hc]; nlinarith)
    hL hR (by rwa [abs_of_pos hca])
  exact ⟨A, i', N', h1, h2, by rw [h4]; exact mul_pos hca op, h4, h5, h6, h7⟩

theorem mul_surds (hg : env.Good B) (hB : 1 ≤ B) {i j N K : Nat} {a c : Int} (si : Simplest N i) (sj : Simplest K j)
    (ha : 0 < a) (hc : 0 < c) (hL : Nat.lcm i j ≤ 2 ^ 53)
    (hR : N ^ (Nat.lcm i j / i) * K ^ (Nat.lcm i j / j) ≤ B)
    (hA : a * c * (N ^ (Nat.lcm i j / i) * K ^ (Nat.lcm i j / j) : Nat) ≤ env.M) :
    ∃ (A : Int) (i' N' : Nat), mul env ⟨i, ⟨N, 1⟩, ⟨a, 1⟩⟩ ⟨j, ⟨K, 1⟩, ⟨c, 1⟩⟩ = .ok ⟨i', ⟨N', 1⟩, ⟨A, 1⟩⟩ ∧ Simplest N' i' ∧ 0 < A ∧
      A ≤ a * c * (N ^ (Nat.lcm i j / i) * K ^ (Nat.lcm i j / j) : Nat) ∧ i' ∣ Nat.lcm i j ∧
      N' ^ (Nat.lcm i j / i') ≤ N ^ (Nat.lcm i j / i) * K ^ (Nat.lcm i j / j) ∧
      (A : ℝ) * (N' : ℝ) ^ ((1 : ℝ) / i') = (a : ℝ) * (N : ℝ) ^ ((1 : ℝ) / i) * (c * (K : ℝ) ^ ((1 : ℝ) / j)) := by
  have hL0 : 0 < Nat.lcm i j := Nat.lcm_pos si.2.1 sj.2.1
  have hRp : 0 < N ^ (Nat.lcm i j / i) * K ^ (Nat.lcm i j / j) := Nat.mul_pos (pow_pos si.1 _) (pow_pos sj.1 _)
  have oR : ((outer (Nat.lcm i j) (N ^ (Nat.lcm i j / i) * K ^ (Nat.lcm i j / j)) : Nat) : Int) ≤
      ((N ^ (Nat.lcm i j / i) * K ^ (Nat.lcm i j / j) : Nat) : Int) := by exact_mod_cast outer_le hL0 hRp
  have le := mul_le_mul_of_nonneg_left oR (mul_pos ha hc).le
  obtain ⟨A, i', N', h1, h2, h3, h4, h5, h6, h7⟩ := mul_surds' hg hB si sj ha hc hL hR (le_trans le hA)
  exact ⟨A, i', N', h1, h2, h3, by rw [h4]; exact le, h5, h6, h7⟩

end Real
end Symxx.Num

namespace Symxx.Sym
open Symxx.Num
namespace Frac
variable {env : FEnv} {B : Nat} (hs : SortOk env.sort) (ht : Poly.SortTotal env) (h1 : SortOne env)
include hs ht h1

/-- cancelling the common divisor. -/
theorem normalize_surd (hg : env.toEnv.Good B) (hB : 1 ≤ B) {i N : Nat} {a b : Int} (sm : Simplest N i) (hi : i ≤ 2 ^ 53) (hN : N ≤ B)
    (ha0 : 0 < a) (hb0 : 0 < b) (haM : a ≤ env.M) (hbM : b ≤ env.M) :
    normalize env ⟨[Term.ofReal ⟨i, ⟨N, 1⟩, ⟨a, 1⟩⟩], [Term.con b]⟩ =
      .ok (surd (a / (Int.gcd a b : Int)) i N (b / (Int.gcd a b : Int))) := by
  have hp := hg.powOk hB
  have h := hp.toIntOk
  have hM := h.hM
  have aa : |a| ≤ env.M := by rwa [abs_of_pos ha0]
  have ab : |b| ≤ env.M := by rwa [abs_of_pos hb0]
  have a1 := Real.abs1 h
  have nrm := normalize_single h hs ht h1
  have gp : 0 < (Int.gcd a b : Int) := by exact_mod_cast Int.gcd_pos_iff.2 (Or.inr hb0.ne')
  have gb : (Int.gcd a b : Int) ∣ b := Int.gcd_dvd_right a b
  have ga : (Int.gcd a b : Int) ∣ a := Int.gcd_dvd_left a b
  have gM : (Int.gcd a b : Int) ≤ env.M := le_trans (Int.le_of_dvd hb0 gb) hbM
  generalize hge : (Int.gcd a b : Int) = g at gp gb ga gM ⊢
  have hcan : ∀ x : Int, x ≠ 0 → Real.Canon ⟨i, ⟨N, 1⟩, ⟨x, 1⟩⟩ := fun x hx => ⟨N, rfl, sm, one_ne_zero, fun h => absurd h hx⟩
  have s1 : scaleAll env.toEnv 1 [Term.ofReal ⟨i, ⟨N, 1⟩, ⟨a, 1⟩⟩] = .ok [Term.ofReal ⟨i, ⟨N, 1⟩, ⟨a, 1⟩⟩] := by
    have tm : Term.mul env.toEnv (Term.ofReal ⟨i, ⟨N, 1⟩, ⟨a, 1⟩⟩) (Term.con 1) = .ok (Term.ofReal ⟨i, ⟨N, 1⟩, ⟨a, 1⟩⟩) := by
      unfold Term.mul Term.con
      simp only [Term.ofReal]
      have : Syms.merge env.M [] [] = .ok [] := by unfold Syms.merge; rfl
      rw [this, Res.bind_ok, Real.mul_int_canon hg hB (hcan a ha0.ne') hi hN ⟨aa, by simpa using hM⟩
        (Rational.mul_den_cancel hM aa hM one_pos), Res.bind_ok]
      unfold Syms.dropZero
      rfl
    unfold scaleAll Poly.mapM Term.ofInt
    rw [Real.ofInt_int h a1, Res.bind_ok, Res.bind_ok]
    unfold Poly.mapM
    rw [show Term.ofReal (Real.int 1) = Term.con 1 from rfl, tm]
    rfl
  have s2 : scaleAll env.toEnv 1 [Term.con b] = .ok [Term.con b] := by
    have e : Term.mul env.toEnv (Term.con b) (Term.con 1) = .ok (Term.con b) := by
      unfold Term.mul Term.con
      simp only [Term.ofReal]
      have : Syms.merge env.M [] [] = .ok [] := by unfold Syms.merge; rfl
      have e := Rational.mul_int hM ab a1 (by rwa [mul_one])
      rw [mul_one] at e
      have e' : Real.mul env.toEnv (Real.int b) (Real.int 1) = .ok (Real.int b) := Real.mul_ofRat h e ⟨ab, by simpa using hM⟩
      rw [this, Res.bind_ok, e', Res.bind_ok]
      unfold Syms.dropZero
      rfl
    unfold scaleAll Poly.mapM Term.ofInt
    rw [Real.ofInt_int h a1, Res.bind_ok, Res.bind_ok]
    unfold Poly.mapM
    rw [show Term.ofReal (Real.int 1) = Term.con 1 from rfl, e]
    rfl
  have hi1 : Poly.IntLe |b| [Term.con b] := Poly.intLe_cons.2 ⟨Term.intLe_ofInt _ b, Poly.intLe_nil _⟩
  have m1 : multLoop env.M [Term.ofReal ⟨i, ⟨N, 1⟩, ⟨a, 1⟩⟩] 1 = .ok 1 := by
    unfold multLoop
    show (chk env.M (1 * 1) >>= _) = _
    rw [one_mul, chk_ok (inRange_of_abs a1), Res.bind_ok]
    rfl
  have tT : ∀ k : Int, |k| ≤ env.M → Rational.toT env.M ⟨k, 1⟩ = .ok k := fun k hk =>
    divT_ok.2 ⟨one_ne_zero, by simp only [Int.tdiv_one]; exact inRange_of_abs hk, by simp⟩
  have td : Term.divReal env.toEnv (Term.ofReal ⟨i, ⟨N, 1⟩, ⟨a, 1⟩⟩) (Real.int g) = .ok (Term.ofReal ⟨i, ⟨N, 1⟩, ⟨a / g, 1⟩⟩) := by
    unfold Term.divReal Real.div
    simp only [Term.ofReal]
    have hinv : Real.inverse env.toEnv (Real.int g) = .ok (Real.ofRat ⟨1, g⟩) := by
      unfold Real.inverse Real.int
      simp only
      rw [Rational.inverse_pos hM gM gp, Res.bind_ok, Rational.inverse_pos hM hM one_pos, Res.bind_ok]
      rfl
    have gg : (Int.gcd a g : Int) = g := by
      obtain ⟨x, hx⟩ := ga
      rw [hx]
      rw [show Int.gcd (g * x) g = g.natAbs by simp]
      exact Int.natAbs_of_nonneg gp.le
    have e := Rational.mul_inv (j := a) hM aa gM gp
    rw [gg, Int.ediv_self gp.ne'] at e
    have ag0 : 0 < a / g := Int.ediv_pos_of_pos_of_dvd ha0 gp.le ga
    have agM : |a / g| ≤ env.M := by
      rw [abs_of_pos ag0]; exact le_trans (Int.ediv_le_self g ha0.le) haM
    rw [hinv, Res.bind_ok, Real.mul_rat_canon hg hB (hcan _ ag0.ne') hi hN ⟨agM, by simpa using hM⟩ e, Res.bind_ok]
    unfold Syms.dropZero
    rfl
  unfold normalize
  simp only
  rw [nrm, Res.bind_ok, nrm, Res.bind_ok, multLoop_int hM hi1, Res.bind_ok, m1, Res.bind_ok, s1, Res.bind_ok, s2, Res.bind_ok]
  simp only
  have g1 : gcdT env.M a b = .ok g := gcdT_ok.2 ⟨⟨aa, ab⟩, hge.symm⟩
  have g2 : ∀ g, gcdOuter env.M [Term.con b] [Term.ofReal ⟨i, ⟨N, 1⟩, ⟨a, 1⟩⟩] g = .ok (some g) := fun _ => rfl
  have t1 : Rational.toT env.M (Term.ofReal ⟨i, ⟨N, 1⟩, ⟨a, 1⟩⟩).coe.coe = .ok a := tT a aa
  have t2 : Rational.toT env.M (Term.con b).coe.coe = .ok b := tT b ab
  rw [t1, Res.bind_ok, t2, Res.bind_ok, g1, Res.bind_ok, g2, Res.bind_ok]
  simp only
  rw [Real.ofInt_int h (by rwa [abs_of_pos gp]), Res.bind_ok]
  have d1 : Poly.divReal env [Term.ofReal ⟨i, ⟨N, 1⟩, ⟨a, 1⟩⟩] (Real.int g) = .ok [Term.ofReal ⟨i, ⟨N, 1⟩, ⟨a / g, 1⟩⟩] := by
    unfold Poly.divReal Poly.mapM
    rw [td, Res.bind_ok]
    unfold Poly.mapM
    rw [Res.bind_ok, Res.bind_ok]
    exact nrm _
  have d2 : Poly.divReal env [Term.con b] (Real.int g) = .ok [Term.con (b / g)] := by
    unfold Poly.divReal
    rw [div_single h ab gp gM gb, Res.bind_ok]
    exact nrm _
  rw [d1, Res.bind_ok, d2, Res.bind_ok]
  rfl

theorem mulAssign_one (h : env.toEnv.IntOk) {x y z : Num.Real} (e : Real.mul env.toEnv x y = .ok z) :
    Poly.mulAssign env [Term.ofReal x] [Term.ofReal y] = .ok [Term.ofReal z] := by
  have tm : Term.mul env.toEnv (Term.ofReal x) (Term.ofReal y) = .ok (Term.ofReal z) := by
    unfold Term.mul
    simp only [Term.ofReal]
    have : Syms.merge env.M [] [] = .ok [] := by unfold Syms.merge; rfl
    rw [this, Res.bind_ok, e, Res.bind_ok]
    unfold Syms.dropZero
    rfl
  unfold Poly.mulAssign Poly.products Poly.mapM Poly.products Poly.mapM
  rw [tm]
  simp only [Res.bind_ok, List.append_nil]
  exact normalize_single h hs ht h1 _

/-- the product of two roots over integers. -/
theorem mul_surd (hg : env.toEnv.Good B) (hB : 1 ≤ B) {i j N K : Nat} {a b c d : Int} (si : Simplest N i) (sj : Simplest K j)
    (ha : 0 < a) (hb : 0 < b) (hc : 0 < c) (hd : 0 < d) (hL : Nat.lcm i j ≤ 2 ^ 53)
    (hR : N ^ (Nat.lcm i j / i) * K ^ (Nat.lcm i j / j) ≤ B)
    (hA : a * c * (Real.outer (Nat.lcm i j) (N ^ (Nat.lcm i j / i) * K ^ (Nat.lcm i j / j)) : Nat) ≤ env.M) (hD : b * d ≤ env.M) :
    ∃ (A D : Int) (i' N' : Nat), mul env (surd a i N b) (surd c j K d) = .ok (surd A i' N' D) ∧ Simplest N' i' ∧ 0 < A ∧ 0 < D ∧
      Int.gcd A D = 1 ∧ A ≤ a * c * (Real.outer (Nat.lcm i j) (N ^ (Nat.lcm i j / i) * K ^ (Nat.lcm i j / j)) : Nat) ∧ D ≤ b * d ∧
      i' ∣ Nat.lcm i j ∧ N' ^ (Nat.lcm i j / i') ≤ N ^ (Nat.lcm i j / i) * K ^ (Nat.lcm i j / j) ∧
      (A : ℝ) / D * (N' : ℝ) ^ ((1 : ℝ) / i') = (a : ℝ) / b * (N : ℝ) ^ ((1 : ℝ) / i) * ((c : ℝ) / d * (K : ℝ) ^ ((1 : ℝ) / j)) := by
  have h := (hg.powOk hB).toIntOk
  obtain ⟨A, i', N', e1, e2, e3, e4, e5, e6, e7⟩ := Real.mul_surds' hg hB si sj ha hc hL hR hA
  have bd := mul_pos hb hd
  have hAM : A ≤ env.M := by rw [e4]; exact hA
  have L0 : 0 < Nat.lcm i j := Nat.lcm_pos si.2.1 sj.2.1
  have i53 : i' ≤ 2 ^ 53 := le_trans (Nat.le_of_dvd L0 e5) hL
  have q0 : Nat.lcm i j / i' ≠ 0 := (Nat.div_pos (Nat.le_of_dvd L0 e5) e2.2.1).ne'
  have NB : N' ≤ B := le_trans (le_trans (Nat.le_self_pow q0 N') e6) hR
  have nrm := normalize_surd hs ht h1 hg hB e2 i53 NB e3 bd hAM hD
  obtain ⟨r1, r2, r3, r4, r5⟩ := Frac.red_facts (n := A) bd.ne'
  have Dp : 0 < (b * d) / (Int.gcd A (b * d) : Int) := lt_of_le_of_ne (Int.ediv_nonneg bd.le (by positivity)) r1.symm
  have gp : (0 : Int) < (Int.gcd A (b * d) : Int) := by exact_mod_cast Int.gcd_pos_iff.2 (Or.inr bd.ne')
  have Ap : 0 < A / (Int.gcd A (b * d) : Int) := Int.ediv_pos_of_pos_of_dvd e3 gp.le (Int.gcd_dvd_left A _)
  refine ⟨_, _, i', N', ?_, e2, Ap, Dp, r5, ?_, Int.ediv_le_self _ bd.le, e5, e6, ?_⟩
  · unfold mul surd
    simp only
    have bM : |b| ≤ env.M := by rw [abs_of_pos hb]; nlinarith
    have dM : |d| ≤ env.M := by rw [abs_of_pos hd]; nlinarith
    rw [mulAssign_one hs ht h1 h e1, Res.bind_ok, mul_single h hs ht bM dM (by rwa [abs_of_pos bd]), Res.bind_ok]
    exact nrm
  · rw [← e4]; exact Int.ediv_le_self _ e3.le
  · generalize A / (Int.gcd A (b * d) : Int) = x at *
    generalize (b * d) / (Int.gcd A (b * d) : Int) = y at *
    have y0 : (y : ℝ) ≠ 0 := by exact_mod_cast Dp.ne'
    have b0 : (b : ℝ) ≠ 0 := by exact_mod_cast hb.ne'
    have d0 : (d : ℝ) ≠ 0 := by exact_mod_cast hd.ne'
    have key : (x : ℝ) / y = A / (b * d) := by
      rw [div_eq_div_iff y0 (mul_ne_zero b0 d0)]
      exact_mod_cast r4.symm
    rw [key, div_mul_eq_mul_div, e7]
    field_simp

/-- a root over an integer divided by a fraction. -/
theorem div_surd (hg : env.toEnv.Good B) (hB : 1 ≤ B) {i N : Nat} {a b p q : Int} (si : Simplest N i) (i53 : i ≤ 2 ^ 53) (hN : N ≤ B)
    (ha : 0 < a) (hb : 0 < b) (hp : 0 < p) (hq : 0 < q) (hA : a * q ≤ env.M) (hD : b * p ≤ env.M) :
    ∃ A D : Int, div env (surd a i N b) (quo p q) = .ok (surd A i N D) ∧ 0 < A ∧ 0 < D ∧
      Int.gcd A D = 1 ∧ A ≤ a * q ∧ D ≤ b * p ∧
      (A : ℝ) / D * (N : ℝ) ^ ((1 : ℝ) / i) = (a : ℝ) / b * (N : ℝ) ^ ((1 : ℝ) / i) / ((p : ℝ) / q) := by
  have h := (hg.powOk hB).toIntOk
  have hM := h.hM
  have aq := mul_pos ha hq
  have bp := mul_pos hb hp
  have aM : |a| ≤ env.M := by rw [abs_of_pos ha]; nlinarith
  have bM : |b| ≤ env.M := by rw [abs_of_pos hb]; nlinarith
  have pM : |p| ≤ env.M := by rw [abs_of_pos hp]; nlinarith
  have qM : |q| ≤ env.M := by rw [abs_of_pos hq]; nlinarith
  have hcan : Real.Canon ⟨i, ⟨N, 1⟩, ⟨a * q, 1⟩⟩ := ⟨N, rfl, si, one_ne_zero, fun h => absurd h aq.ne'⟩
  have e1 := Real.mul_int_canon hg hB hcan i53 hN ⟨by rwa [abs_of_pos aq], by simpa using hM⟩
    (Rational.mul_int hM aM qM (by rwa [abs_of_pos aq]))
  have nrm := normalize_surd hs ht h1 hg hB si i53 hN aq bp hA hD
  obtain ⟨r1, r2, r3, r4, r5⟩ := Frac.red_facts (n := a * q) bp.ne'
  have Dp : 0 < (b * p) / (Int.gcd (a * q) (b * p) : Int) := lt_of_le_of_ne (Int.ediv_nonneg bp.le (by positivity)) r1.symm
  have gp : (0 : Int) < (Int.gcd (a * q) (b * p) : Int) := by exact_mod_cast Int.gcd_pos_iff.2 (Or.inr bp.ne')
  have Ap : 0 < (a * q) / (Int.gcd (a * q) (b * p) : Int) := Int.ediv_pos_of_pos_of_dvd aq gp.le (Int.gcd_dvd_left _ _)
  refine ⟨_, _, ?_, Ap, Dp, r5, Int.ediv_le_self _ aq.le, Int.ediv_le_self _ bp.le, ?_⟩
  · unfold div surd quo
    simp only
    rw [isZero_single h pM, Res.bind_ok, decide_eq_false hp.ne', Bool.not_false, Res.assert_true, Res.bind_ok,
      show Term.con q = Term.ofReal (Real.int q) from rfl, mulAssign_one hs ht h1 h e1, Res.bind_ok,
      mul_single h hs ht bM pM (by rwa [abs_of_pos bp]), Res.bind_ok]
    exact nrm
  · generalize (a * q) / (Int.gcd (a * q) (b * p) : Int) = x at *
    generalize (b * p) / (Int.gcd (a * q) (b * p) : Int) = y at *
    have y0 : (y : ℝ) ≠ 0 := by exact_mod_cast Dp.ne'
    have b0 : (b : ℝ) ≠ 0 := by exact_mod_cast hb.ne'
    have p0 : (p : ℝ) ≠ 0 := by exact_mod_cast hp.ne'
    have q0 : (q : ℝ) ≠ 0 := by exact_mod_cast hq.ne'
    have key : (x : ℝ) / y = a * q / (b * p) := by
      rw [div_eq_div_iff y0 (mul_ne_zero b0 p0)]
      exact_mod_cast r4.symm
    rw [key]
    field_simp

end Frac
end Symxx.Sym

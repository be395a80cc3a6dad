import Verif.Frac.Model
import Verif.Num.RatProof
/-!
# Terms and polynomials with integer coefficients and exponents: every operation returns

No floating point is involved here; the only conditions are that the sums and products fit `T`.
-/
namespace Symxx.Num

namespace Rational

theorem add_int {M a b : Int} (hM : 1 ≤ M) (ha : |a| ≤ M) (hb : |b| ≤ M) (hab : |a + b| ≤ M) :
    add M ⟨a, 1⟩ ⟨b, 1⟩ = .ok ⟨a + b, 1⟩ := by
  unfold add
  have h1 : lcmT M 1 1 = .ok 1 := lcmT_ok.2 ⟨⟨by simpa using hM, by simpa using hM, by simpa using hM⟩, by simp⟩
  have h2 : divT M 1 1 = .ok 1 := divT_ok.2 ⟨by norm_num, inRange_of_abs (by simpa using hM), by simp⟩
  simp only [h1, h2, Res.bind_ok, mul_one]
  rw [chk_ok (inRange_of_abs ha), Res.bind_ok, chk_ok (inRange_of_abs hb), Res.bind_ok, chk_ok (inRange_of_abs hab),
    Res.bind_ok, normalize_int M _ hab hM]

theorem mul_int {M a b : Int} (hM : 1 ≤ M) (ha : |a| ≤ M) (hb : |b| ≤ M) (hab : |a * b| ≤ M) :
    mul M ⟨a, 1⟩ ⟨b, 1⟩ = .ok ⟨a * b, 1⟩ := by
  unfold mul
  have h1 : ∀ x : Int, |x| ≤ M → gcdT M x 1 = .ok 1 := fun x hx => gcdT_ok.2 ⟨⟨hx, by simpa using hM⟩, by simp⟩
  have h2 : ∀ x : Int, |x| ≤ M → divT M x 1 = .ok x := fun x hx =>
    divT_ok.2 ⟨by norm_num, by simpa using inRange_of_abs hx, by simp⟩
  have h3 : |(1 : Int)| ≤ M := by simpa using hM
  simp only [h1 a ha, h1 b hb, h2 a ha, h2 b hb, h2 1 h3, Res.bind_ok, mul_one]
  rw [chk_ok (inRange_of_abs hab), Res.bind_ok, chk_ok (inRange_of_abs h3), Res.bind_ok]
  rfl

theorem negate_int {M a : Int} (hM : 1 ≤ M) (ha : |a| ≤ M) : negate M ⟨a, 1⟩ = .ok ⟨-a, 1⟩ := by
  unfold negate
  have : |-a| ≤ M := by rwa [abs_neg]
  rw [chk_ok (inRange_of_abs this), Res.bind_ok]
  unfold mk2
  have h : Res.assert (decide ((1 : Int) ≠ 0)) divisionByZero = .ok () := rfl
  simp only [h, Res.bind_ok]
  exact normalize_int M _ this hM

theorem cross_int {M a b : Int} (ha : |a| ≤ M) (hb : |b| ≤ M) : cross M ⟨a, 1⟩ ⟨b, 1⟩ = .ok (a, b) := by
  unfold cross
  simp only [mul_one]
  rw [chk_ok (inRange_of_abs ha), Res.bind_ok, chk_ok (inRange_of_abs hb), Res.bind_ok]

theorem eq_int {M a b : Int} (ha : |a| ≤ M) (hb : |b| ≤ M) : eq M ⟨a, 1⟩ ⟨b, 1⟩ = .ok (decide (a = b)) := by
  unfold eq; rw [cross_int ha hb, Res.bind_ok]
theorem ne_int {M a b : Int} (ha : |a| ≤ M) (hb : |b| ≤ M) : ne M ⟨a, 1⟩ ⟨b, 1⟩ = .ok (decide (a ≠ b)) := by
  unfold ne; rw [cross_int ha hb, Res.bind_ok]
theorem lt_int {M a b : Int} (ha : |a| ≤ M) (hb : |b| ≤ M) : lt M ⟨a, 1⟩ ⟨b, 1⟩ = .ok (decide (a < b)) := by
  unfold lt; rw [cross_int ha hb, Res.bind_ok]
theorem gt_int {M a b : Int} (ha : |a| ≤ M) (hb : |b| ≤ M) : gt M ⟨a, 1⟩ ⟨b, 1⟩ = .ok (decide (a > b)) := by
  unfold gt; rw [cross_int ha hb, Res.bind_ok]
theorem le_int {M a b : Int} (ha : |a| ≤ M) (hb : |b| ≤ M) : le M ⟨a, 1⟩ ⟨b, 1⟩ = .ok (decide (a ≤ b)) := by
  unfold le; rw [cross_int ha hb, Res.bind_ok]
theorem ge_int {M a b : Int} (ha : |a| ≤ M) (hb : |b| ≤ M) : ge M ⟨a, 1⟩ ⟨b, 1⟩ = .ok (decide (a ≥ b)) := by
  unfold ge; rw [cross_int ha hb, Res.bind_ok]
theorem eqInt_int {M a k : Int} (hM : 1 ≤ M) (ha : |a| ≤ M) (hk : |k| ≤ M) : eqInt M ⟨a, 1⟩ k = .ok (decide (a = k)) := by
  unfold eqInt; rw [ofInt_eq M k hk hM, Res.bind_ok, eq_int ha hk]

end Rational

/-- what the integer fragment needs from the environment: `T` holds 1, and 1 has no prime factors. -/
structure Env.IntOk (env : Env) : Prop where
  hM : 1 ≤ env.M
  fac1 : env.fac 1 = .ok []

namespace Real

/-- the integer `k`. -/
def int (k : Int) : Real := ⟨1, ⟨1, 1⟩, ⟨k, 1⟩⟩

variable {env : Env} (h : env.IntOk)
include h

theorem abs1 : |(1 : Int)| ≤ env.M := by simpa using h.hM
theorem abs0 : |(0 : Int)| ≤ env.M := by have := h.hM; simp; omega

theorem normalize_int' {k : Int} (hk : |k| ≤ env.M) : normalize env (int k) = .ok (int k) := by
  unfold normalize int decompose
  have e1 : (!(Rational.isInt ⟨1, 1⟩)) = false := rfl
  simp only [e1, Bool.false_eq_true, if_false, Res.bind_ok, h.fac1, runLoop, stripAll, ne_eq, not_true_eq_false]
  have e2 : gExp env 1 [] = 1 := by unfold gExp; simp
  rw [e2]
  simp only [not_true_eq_false, if_false, Res.bind_ok]
  rw [Rational.eqInt_int h.hM (abs1 h) (abs1 h), Res.bind_ok, Rational.eqInt_int h.hM hk (abs0 h), Res.bind_ok]
  by_cases hk0 : k = 0
  · subst hk0
    simp [Rational.ofInt_eq env.M 1 (abs1 h) h.hM]
  · simp [hk0]

theorem ofInt_int {k : Int} (hk : |k| ≤ env.M) : ofInt env k = .ok (int k) := by
  unfold ofInt ofRational mk3
  rw [Rational.ofInt_eq _ _ hk h.hM, Res.bind_ok, Rational.ofInt_eq _ _ (abs1 h) h.hM, Res.bind_ok]
  exact normalize_int' h hk

theorem isEquivalentWith_int (a b : Int) : isEquivalentWith env (int a) (int b) = .ok true := by
  unfold isEquivalentWith int
  simp only
  rw [Rational.eq_int (abs1 h) (abs1 h), Res.bind_ok]
  simp only [decide_true, if_true]
  rw [Rational.eqInt_int h.hM (abs1 h) (abs1 h), Res.bind_ok]
  simp

theorem add_int {a b : Int} (ha : |a| ≤ env.M) (hb : |b| ≤ env.M) (hab : |a + b| ≤ env.M) :
    add env (int a) (int b) = .ok (int (a + b)) := by
  unfold add
  rw [isEquivalentWith_int h, Res.bind_ok]
  simp only [Bool.not_true, Bool.false_eq_true, if_false, int]
  rw [Rational.add_int h.hM ha hb hab, Res.bind_ok]
  exact normalize_int' h hab

theorem negate_int {a : Int} (ha : |a| ≤ env.M) : negate env (int a) = .ok (int (-a)) := by
  unfold negate mk3 int
  simp only
  rw [Rational.negate_int h.hM ha, Res.bind_ok]
  exact normalize_int' h (by rwa [abs_neg])

theorem sub_int {a b : Int} (ha : |a| ≤ env.M) (hb : |b| ≤ env.M) (hab : |a - b| ≤ env.M) :
    sub env (int a) (int b) = .ok (int (a - b)) := by
  unfold sub
  rw [negate_int h hb, Res.bind_ok, add_int h ha (by rwa [abs_neg]) (by rwa [← sub_eq_add_neg]), Res.bind_ok,
    normalize_int' h (by rwa [← sub_eq_add_neg]), sub_eq_add_neg]

theorem mul_int {a b : Int} (ha : |a| ≤ env.M) (hb : |b| ≤ env.M) (hab : |a * b| ≤ env.M) :
    mul env (int a) (int b) = .ok (int (a * b)) := by
  unfold mul int lcmU ratOfIndex
  have hM := h.hM
  have h1 : ((Nat.lcm 1 1 : Nat) : Int) ≤ 2 * env.M + 1 := by simp; omega
  have hw : wrap env.M ((1 / 1 : Nat) : Int) = 1 := wrap_of_range (inRange_of_abs (by simpa using hM))
  have hl : Nat.lcm 1 1 = 1 := rfl
  have hp : Rational.pow env.M env.fl ⟨1, 1⟩ ⟨1, 1⟩ = .ok ⟨1, 1⟩ := by
    unfold Rational.pow
    rw [Rational.eqInt_int h.hM (abs1 h) (abs0 h), Res.bind_ok]
    simp only [one_ne_zero, decide_false, Bool.false_eq_true, if_false]
    rw [Rational.eqInt_int h.hM (abs1 h) (abs1 h), Res.bind_ok]
    simp
  simp only
  rw [if_pos h1, Res.bind_ok, if_neg (by norm_num), hl, hw, Rational.ofInt_eq _ _ (abs1 h) h.hM, Res.bind_ok, hp]
  simp only [Res.bind_ok, hp]
  rw [Rational.mul_int h.hM (abs1 h) (abs1 h) (by simpa using hM), Res.bind_ok, Rational.mul_int h.hM ha hb hab, Res.bind_ok]
  exact normalize_int' h hab

theorem eq_int {a b : Int} (ha : |a| ≤ env.M) (hb : |b| ≤ env.M) : eq env (int a) (int b) = .ok (decide (a = b)) := by
  unfold eq int
  simp only
  rw [Rational.eq_int ha hb, Res.bind_ok]
  by_cases e : a = b
  · simp only [e, decide_true, if_true]
    rw [Rational.eq_int (abs1 h) (abs1 h), Res.bind_ok]
    simp
  · simp [e]

theorem cmpSide_int {a : Int} (ha : |a| ≤ env.M) : cmpSide env ⟨a, 1⟩ 1 ⟨1, 1⟩ 1 = .ok ⟨a, 1⟩ := by
  have hM := h.hM
  have hw : wrap env.M ((1 : Nat) : Int) = 1 := wrap_of_range (inRange_of_abs (by simpa using hM))
  have hp : ∀ q : Rational, Rational.pow env.M env.fl q ⟨1, 1⟩ = .ok q := by
    intro q
    unfold Rational.pow
    rw [Rational.eqInt_int h.hM (abs1 h) (abs0 h), Res.bind_ok]
    simp only [one_ne_zero, decide_false, Bool.false_eq_true, if_false]
    rw [Rational.eqInt_int h.hM (abs1 h) (abs1 h), Res.bind_ok]
    simp
  unfold cmpSide ratOfIndex
  rw [hw, Rational.ofInt_eq _ _ (abs1 h) h.hM]
  simp only [Res.bind_ok, hp]
  rw [Rational.mul_int h.hM ha (abs1 h) (by simpa using ha), mul_one]

theorem lt_int {a b : Int} (ha : |a| ≤ env.M) (hb : |b| ≤ env.M) : ∃ v, lt env (int a) (int b) = .ok v := by
  have hM := h.hM
  have hu : mulU env 1 1 = 1 := by
    unfold mulU
    have : ((1 * 1 : Nat) : Int) % (2 * (env.M + 1)) = 1 := by simpa using Int.emod_eq_of_lt (by norm_num) (by omega)
    rw [this]; rfl
  have hle : ∀ x : Int, |x| ≤ env.M → leZero env ⟨x, 1⟩ = .ok (decide (x ≤ 0)) := by
    intro x hx
    unfold leZero
    rw [Rational.ofInt_eq _ _ (abs0 h) h.hM, Res.bind_ok, Rational.le_int hx (abs0 h)]
  have hge : ∀ x : Int, |x| ≤ env.M → geZero env ⟨x, 1⟩ = .ok (decide (x ≥ 0)) := by
    intro x hx
    unfold geZero
    rw [Rational.ofInt_eq _ _ (abs0 h) h.hM, Res.bind_ok, Rational.ge_int hx (abs0 h)]
  have hna : |-a| ≤ env.M := by rwa [abs_neg]
  have hnb : |-b| ≤ env.M := by rwa [abs_neg]
  unfold lt
  rw [eq_int h ha hb, Res.bind_ok]
  split
  · exact ⟨_, rfl⟩
  simp only [int, hle a ha, hge a ha, hle b hb, hge b hb, hu, Res.bind_ok, Rational.negate_int hM ha,
    Rational.negate_int hM hb, cmpSide_int h ha, cmpSide_int h hb, cmpSide_int h hna, cmpSide_int h hnb,
    Rational.gt_int hna hnb, Rational.lt_int ha hb]
  by_cases a1 : a ≤ 0 <;> by_cases a2 : a ≥ 0 <;> by_cases b1 : b ≤ 0 <;> by_cases b2 : b ≥ 0 <;>
    simp [a1, a2, b1, b2]

theorem gt_int {a b : Int} (ha : |a| ≤ env.M) (hb : |b| ≤ env.M) : ∃ v, gt env (int a) (int b) = .ok v := by
  obtain ⟨v, hv⟩ := lt_int h ha hb
  unfold gt
  rw [hv, Res.bind_ok, eq_int h ha hb]
  cases v
  · exact ⟨_, rfl⟩
  · exact ⟨_, rfl⟩

end Real
end Symxx.Num

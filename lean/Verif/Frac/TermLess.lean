import Verif.Frac.Order
import Verif.Frac.Tidy
/-!
# `Term::operator<` (frac.hpp 76-102)

The library does not call it; a user who keeps terms in a `std::set` or sorts them with `std::sort` does.
-/
namespace Symxx.Sym
open Symxx.Num

/-- `aindex += r.second` for every symbol (frac.hpp 83-90). -/
def Syms.sumExp (M : Int) : Syms → Rational → Res Rational
  | [], r => .ok r
  | (_, v) :: t, r => do
    let r ← Rational.add M r v
    sumExp M t r

/-- `x != 0` (num.hpp 235-238, used in frac.hpp 96, 98). -/
def ratNeZero (M : Int) (a : Rational) : Res Bool := do
  let z ← Rational.ofInt M 0
  Rational.ne M a z

/-- `Term::operator<` (frac.hpp 76-102). -/
def Term.less (env : Env) (a b : Term) : Res Bool := do
  let za ← Rational.ofInt env.M 0
  let zb ← Rational.ofInt env.M 0
  let x ← Syms.sumExp env.M a.syms za
  let y ← Syms.sumExp env.M b.syms zb
  if ← Rational.eq env.M x y then Real.lt env a.coe b.coe
  else do
    let a0 ← Rational.eqInt env.M x 0
    let b1 ← (if a0 then .ok true else ratNeZero env.M y)
    if a0 || b1 then .ok false
    else do
      let a1 ← ratNeZero env.M x
      let b0 ← (if a1 then .ok true else Rational.eqInt env.M y 0)
      if a1 || b0 then .ok true
      else Rational.lt env.M x y

/-- the total degree of a term: the sum of its exponents. -/
def Term.degree (t : Term) : ℚ := (t.syms.map fun p => p.2.val).sum

theorem Syms.sumExp_sound {M : Int} : ∀ {s : Syms} {r q : Rational}, (∀ p ∈ s, 0 < p.2.den) → 0 < r.den →
    sumExp M s r = .ok q → 0 < q.den ∧ q.val = r.val + (s.map fun p => p.2.val).sum
  | [], r, q, _, hr, h => by
    unfold sumExp at h; injection h with h; subst h; simp [hr]
  | (k, v) :: t, r, q, hs, hr, h => by
    unfold sumExp at h
    obtain ⟨x, h1, h⟩ := Res.bind_eq_ok.1 h
    have hv := hs (k, v) List.mem_cons_self
    obtain ⟨e1, -, e2, -⟩ := Rational.add_spec hr.ne' (ne_of_gt hv) h1
    obtain ⟨f1, f2⟩ := sumExp_sound (fun p hp => hs p (List.mem_cons_of_mem _ hp)) e2 h
    refine ⟨f1, ?_⟩
    rw [f2, e1]
    simp [add_assoc]

theorem ratNeZero_sound {M : Int} {a : Rational} {v : Bool} (ha : 0 < a.den) (h : ratNeZero M a = .ok v) :
    v = true ↔ a.val ≠ 0 := by
  unfold ratNeZero at h
  obtain ⟨z, h1, h⟩ := Res.bind_eq_ok.1 h
  obtain ⟨rfl, -⟩ := Rational.ofInt_spec h1
  rw [ratNe_sound ha.ne' one_ne_zero h]
  simp [Rational.val]

/-- what `a < b` says. -/
theorem Term.less_sound {env : Env} {B : Nat} (hg : env.Base B) {a b : Term} {v : Bool} (ha : a.Std) (hb : b.Std)
    (hi : ((b.coe.index * a.coe.index : Nat) : Int) ≤ 2 * env.M + 1) (h : less (env.checked B) a b = .ok v) :
    v = true ↔ (a.degree = b.degree ∧ a.coe.val < b.coe.val) ∨ (a.degree ≠ 0 ∧ b.degree = 0) := by
  unfold less at h
  obtain ⟨za, h1, h⟩ := Res.bind_eq_ok.1 h
  obtain ⟨zb, h2, h⟩ := Res.bind_eq_ok.1 h
  obtain ⟨rfl, -⟩ := Rational.ofInt_spec h1
  obtain ⟨rfl, -⟩ := Rational.ofInt_spec h2
  obtain ⟨x, h3, h⟩ := Res.bind_eq_ok.1 h
  obtain ⟨y, h4, h⟩ := Res.bind_eq_ok.1 h
  obtain ⟨dx, ex⟩ := Syms.sumExp_sound (fun p hp => (ha.syms.2 p hp).1) one_pos h3
  obtain ⟨dy, ey⟩ := Syms.sumExp_sound (fun p hp => (hb.syms.2 p hp).1) one_pos h4
  have ex : x.val = a.degree := by rw [ex]; simp [Rational.val, degree]
  have ey : y.val = b.degree := by rw [ey]; simp [Rational.val, degree]
  obtain ⟨w, h5, h⟩ := Res.bind_eq_ok.1 h
  have e5 := Rational.eq_sound_val dx.ne' dy.ne' h5
  rw [ex, ey] at e5
  cases w with
  | true =>
    rw [if_pos rfl] at h
    have hd := e5.1 rfl
    rw [Real.lt_sound hg ha.canon hb.canon ha.den hb.den hi h]
    constructor
    · exact fun h => Or.inl ⟨hd, h⟩
    · rintro (h | h)
      · exact h.2
      · exact absurd (hd.trans h.2) h.1
  | false =>
    rw [if_neg (by simp)] at h
    have hd : a.degree ≠ b.degree := fun e => by simpa using e5.2 e
    obtain ⟨a0, h6, h⟩ := Res.bind_eq_ok.1 h
    have e6 := Rational.eqInt_sound_val dx.ne' h6
    rw [ex, Int.cast_zero] at e6
    obtain ⟨b1, h7, h⟩ := Res.bind_eq_ok.1 h
    cases a0 with
    | true =>
      have := e6.1 rfl
      rw [this] at hd
      simp only [Bool.true_or, if_true] at h
      injection h with h
      subst h
      simp [hd, this]
    | false =>
      have hx : a.degree ≠ 0 := fun e => by simpa using e6.2 e
      rw [if_neg (by simp)] at h7
      have e7 := ratNeZero_sound dy h7
      rw [ey] at e7
      cases b1 with
      | true =>
        have := e7.1 rfl
        simp only [Bool.or_true, if_true] at h
        injection h with h
        subst h
        simp [hd, this]
      | false =>
        have hy : b.degree = 0 := by by_contra hc; simpa using e7.2 hc
        simp only [Bool.or_false, Bool.false_eq_true, if_false] at h
        obtain ⟨a1, h8, h⟩ := Res.bind_eq_ok.1 h
        have e8 := ratNeZero_sound dx h8
        rw [ex] at e8
        have : a1 = true := e8.2 hx
        subst this
        obtain ⟨b0, h9, h⟩ := Res.bind_eq_ok.1 h
        simp only [Bool.true_or, if_true] at h
        injection h with h
        subst h
        simp [hx, hy]

theorem Term.less_mono {e e' : Env} (h : Env.Le e e') (a b : Term) : Res.Le (less e a b) (less e' a b) := by
  have h1 := Real.lt_mono h
  unfold less
  rw [h.M]
  res_mono

end Symxx.Sym

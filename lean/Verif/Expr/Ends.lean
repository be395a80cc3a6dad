import Verif.Expr.Dens
import Verif.Frac.Spec
/-!
# No operation on roots of a positive index runs forever

`Post x P`: the computation `x` comes to an end (it is not `Res.fuel`) and, if it returns, the result satisfies `P`. One pass through the
library proves both: every operation comes to an end, and the indices of all roots stay positive.
-/
namespace Symxx.Res
variable {α β : Type} {x : Res α} {P Q : α → Prop}

/-- `x` comes to an end; if it returns, `P` holds of the result. -/
def Post (x : Res α) (P : α → Prop) : Prop := x ≠ .fuel ∧ ∀ a, x = .ok a → P a

namespace Post

theorem ok {a : α} (h : P a) : Post (.ok a) P := ⟨fun h => (by cases h), fun _ e => by cases e; exact h⟩
theorem ub {m : String} : Post (.ub m : Res α) P := ⟨fun h => (by cases h), fun _ e => by cases e⟩
theorem throw {m : String} : Post (.throw m : Res α) P := ⟨fun h => (by cases h), fun _ e => by cases e⟩
theorem exn {m : String} : Post (.exn m : Res α) P := ⟨fun h => (by cases h), fun _ e => by cases e⟩

theorem bind {f : α → Res β} {R : β → Prop} (hx : Post x P) (hf : ∀ a, P a → Post (f a) R) : Post (x >>= f) R := by
  cases x with
  | ok a => exact hf a (hx.2 a rfl)
  | throw m => exact throw
  | exn m => exact exn
  | ub m => exact ub
  | fuel => exact absurd rfl hx.1

theorem mono (h : Post x P) (hq : ∀ a, P a → Q a) : Post x Q := ⟨h.1, fun a e => hq a (h.2 a e)⟩
theorem nf (h : x ≠ .fuel) : Post x fun _ => True := ⟨h, fun _ _ => trivial⟩
theorem and (h : Post x P) (h' : Post x Q) : Post x fun a => P a ∧ Q a := ⟨h.1, fun a e => ⟨h.2 a e, h'.2 a e⟩⟩
theorem triv (h : Post x P) : Post x fun _ => True := nf h.1
theorem of_clean (h : x.Clean) : Post x fun _ => True :=
  nf (by rcases h with ⟨a, rfl⟩ | ⟨m, rfl⟩ <;> simp)
theorem ite {c : Prop} [Decidable c] {y : Res α} (hx : Post x P) (hy : Post y P) : Post (if c then x else y) P := by
  split
  · exact hx
  · exact hy
theorem assert {b : Bool} {m : String} : Post (Res.assert b m) fun _ => b = true := by
  cases b
  · exact throw
  · exact ok rfl

end Post
end Symxx.Res

namespace Symxx.Num
open Symxx.Res

/-- the bound of an exponent: `den ≠ 0`, and `den` is a value of the machine type up to its sign. -/
def Rational.Exp (M : Int) (q : Rational) : Prop := q.den ≠ 0 ∧ |q.den| ≤ M + 1

/-- no step outside the integer code runs forever. -/
structure Env.Ends (env : Env) : Prop where
  powT : ∀ a b c, env.fl.powT a b c ≠ .fuel
  divPow : ∀ a b c, env.fl.divPow a b c ≠ .fuel
  mulPow : ∀ a b c, env.fl.mulPow a b c ≠ .fuel
  ofPow : ∀ a b, env.fl.ofPow a b ≠ .fuel
  fac : ∀ n, env.fac n ≠ .fuel

namespace Rational
variable {M : Int} {a b : Rational}

theorem chk_p {z : Int} : Post (chk M z) fun r => r = z ∧ InRange M z :=
  ⟨(Post.of_clean (chk_clean M z)).1, fun r e => by have := chk_eq_ok.1 e; exact ⟨this.2, this.1⟩⟩

theorem normalize_p {r : Rational} : Post (normalize M r) fun q => r.den ≠ 0 → q.Exp M :=
  ⟨(Post.of_clean (normalize_clean M r)).1, fun q e hd => by
    obtain ⟨-, -, h1, -, -, h2, -⟩ := normalize_spec e hd
    exact ⟨h1, by have := h2.2; omega⟩⟩

theorem mk2_p {n d : Int} : Post (mk2 M n d) (Exp M) := by
  unfold mk2
  exact .bind .assert fun _ h => normalize_p.mono fun q hq => hq (by simpa using h)

theorem ofInt_p {k : Int} : Post (ofInt M k) fun q => q = ⟨k, 1⟩ ∧ q.Exp M :=
  ⟨normalize_p.1, fun q e => by
    obtain ⟨h1, -, h2⟩ := ofInt_spec e
    subst h1
    exact ⟨rfl, one_ne_zero, by simp; omega⟩⟩

theorem inverse_p : Post (inverse M a) (Exp M) := mk2_p

theorem negate_p : Post (negate M a) (Exp M) := .bind chk_p fun _ _ => mk2_p

theorem mul_p : Post (mul M a b) (Exp M) := by
  refine ⟨?_, fun q e => ?_⟩
  · unfold mul
    refine (Post.bind (R := fun _ => True) (.of_clean (gcdT_clean _ _ _)) fun _ _ => .bind (.of_clean (gcdT_clean _ _ _)) fun _ _ =>
      .bind (.of_clean (divT_clean _ _ _)) fun _ _ => .bind (.of_clean (divT_clean _ _ _)) fun _ _ => .bind chk_p fun _ _ =>
      .bind (.of_clean (divT_clean _ _ _)) fun _ _ => .bind (.of_clean (divT_clean _ _ _)) fun _ _ => .bind chk_p fun _ _ =>
      .bind .assert fun _ _ => .ok trivial).1
  · obtain ⟨-, h1, -, h2, -⟩ := mul_spec e
    refine ⟨h1, abs_le.2 ⟨?_, ?_⟩⟩ <;> · unfold InRange at h2; omega

theorem div_p : Post (div M a b) (Exp M) := .bind inverse_p fun _ _ => mul_p

theorem add_p (ha : a.den ≠ 0) (hb : b.den ≠ 0) : Post (add M a b) (Exp M) := by
  refine ⟨(Post.of_clean (add_clean M a b)).1, fun q e => ?_⟩
  obtain ⟨-, -, h1, h2⟩ := add_spec ha hb e
  exact ⟨h1.ne', by have := h2.2; omega⟩

theorem add_nf : Post (add M a b) fun _ => True := .of_clean (add_clean M a b)

theorem cross_p : Post (cross M a b) fun _ => True := .of_clean (cross_clean _ _ _)
theorem eq_p : Post (eq M a b) fun _ => True := .bind cross_p fun _ _ => .ok trivial
theorem ne_p : Post (ne M a b) fun _ => True := .bind cross_p fun _ _ => .ok trivial
theorem lt_p : Post (lt M a b) fun c => c = decide (a.num * b.den < b.num * a.den) := by
  unfold lt cross
  refine .bind (P := fun x => x = (a.num * b.den, b.num * a.den)) (.bind chk_p fun x hx => .bind chk_p fun y hy => .ok ?_) fun x hx => ?_
  · rw [hx.1, hy.1]
  · subst hx; exact .ok rfl
theorem le_p : Post (le M a b) fun _ => True := .bind cross_p fun _ _ => .ok trivial
theorem gt_p : Post (gt M a b) fun _ => True := .bind cross_p fun _ _ => .ok trivial
theorem ge_p : Post (ge M a b) fun _ => True := .bind cross_p fun _ _ => .ok trivial
theorem eqInt_p {k : Int} : Post (eqInt M a k) fun _ => True := .bind ofInt_p fun _ _ => eq_p
theorem toT_p : Post (toT M a) fun _ => True := .of_clean (divT_clean _ _ _)

theorem pow_p {fl : Fl} (h : ∀ a b c, fl.powT a b c ≠ .fuel) {p : Rational} : Post (pow M fl a p) fun _ => True := by
  unfold pow
  exact .bind eqInt_p fun _ _ => .ite ofInt_p.triv (.bind eqInt_p fun _ _ => .ite (.ok trivial)
    (.bind (.nf (h _ _ _)) fun _ _ => .bind (.nf (h _ _ _)) fun _ _ => normalize_p.triv))

/-- negating an exponent: afterwards it is positive, or it is a negative integer. -/
theorem negate_sign (ha : a.num < 0) : Post (negate M a) fun q => 0 ≤ q.num ∨ (q.num < 0 ∧ q.den = 1 ∧ a.den ≠ 1) := by
  refine ⟨negate_p.1, fun q e => ?_⟩
  unfold negate at e
  obtain ⟨n, h1, e⟩ := Res.bind_eq_ok.1 e
  obtain ⟨-, rfl⟩ := chk_eq_ok.1 h1
  unfold mk2 at e
  obtain ⟨_, h2, e⟩ := Res.bind_eq_ok.1 e
  have hd : a.den ≠ 0 := by simpa using Res.assert_eq_ok.1 h2
  unfold normalize at e
  obtain ⟨an, -, e⟩ := Res.bind_eq_ok.1 e
  obtain ⟨ad, -, e⟩ := Res.bind_eq_ok.1 e
  obtain ⟨g, hg, e⟩ := Res.bind_eq_ok.1 e
  obtain ⟨n, hn, e⟩ := Res.bind_eq_ok.1 e
  obtain ⟨d, hd', e⟩ := Res.bind_eq_ok.1 e
  have hg0 : 0 ≤ g := by
    unfold gcdT at hg
    split at hg
    · cases hg; exact Int.natCast_nonneg _
    · cases hg
  unfold divT at hn hd'
  split at hn
  · cases hn
  · split at hd'
    · cases hd'
    · have hn' := (chk_eq_ok.1 hn).2
      have hd'' := (chk_eq_ok.1 hd').2
      have hpos : 0 ≤ n := by rw [hn']; exact Int.tdiv_nonneg (by simp; omega) hg0
      split at e
      · rename_i hm
        obtain ⟨k, h3, e⟩ := Res.bind_eq_ok.1 e
        cases e
        have := (chk_eq_ok.1 h3).2
        simp only at hd''
        rcases hpos.lt_or_eq with h | h
        · refine .inr ⟨by simp; omega, rfl, fun h1 => ?_⟩
          rw [h1] at hd''
          have : 0 ≤ Int.tdiv 1 g := Int.tdiv_nonneg (by norm_num) hg0
          omega
        · exact .inl (by simp; omega)
      · cases e
        exact .inl hpos

end Rational

namespace Real
variable {env : Env}

/-- a root: the index is positive. -/
def Ix (r : Real) : Prop := 1 ≤ r.index

variable (he : env.Ends)
include he

theorem stripVals_p {i : Nat} : ∀ {vs : List Nat} {rad : Int} {coe : Rational}, Post (stripVals env i vs rad coe) fun _ => True := by
  intro vs
  induction vs with
  | nil => intro rad coe; exact .ok trivial
  | cons v vs ih =>
    intro rad coe
    unfold stripVals
    exact .bind (.nf (he.divPow _ _ _)) fun _ _ => .bind Rational.ofInt_p fun _ _ => .bind Rational.mul_p fun _ _ => ih

/-- with a positive index, the loop ends after at most `exp` iterations. -/
theorem stripWhile_p {i : Nat} (hi : 1 ≤ i) {vs : List Nat} : ∀ {f e : Nat} {rad : Int} {coe : Rational}, e < f →
    Post (stripWhile env i vs f e rad coe) fun _ => True := by
  intro f
  induction f with
  | zero => intro e rad coe h; omega
  | succ f ih =>
    intro e rad coe h
    unfold stripWhile
    split
    · exact .bind (stripVals_p he) fun x _ => ih (by omega)
    · exact .ok trivial

theorem stripAll_p {i : Nat} (hi : 1 ≤ i) : ∀ {m : FMap} {rad : Int} {coe : Rational}, Post (stripAll env i m rad coe) fun _ => True := by
  intro m
  induction m with
  | nil => intro rad coe; exact .ok trivial
  | cons p m ih =>
    intro rad coe
    unfold stripAll
    exact .bind (stripWhile_p he hi (by omega)) fun x _ => ih

theorem rebuildVals_p {k : Nat} : ∀ {vs : List Nat} {rad : Int}, Post (rebuildVals env k vs rad) fun _ => True := by
  intro vs
  induction vs with
  | nil => intro rad; exact .ok trivial
  | cons v vs ih =>
    intro rad
    unfold rebuildVals
    exact .bind (.nf (he.mulPow _ _ _)) fun _ _ => ih

theorem rebuild_p {g : Nat} : ∀ {m : FMap} {rad : Int}, Post (rebuild env g m rad) fun _ => True := by
  intro m
  induction m with
  | nil => intro rad; exact .ok trivial
  | cons p m ih =>
    intro rad
    unfold rebuild
    exact .bind (rebuildVals_p he) fun _ _ => ih

theorem decompose_p {n : Int} : Post (decompose env n) fun _ => True := .bind (.nf (he.fac _)) fun _ _ => .ok trivial

omit he in
theorem gExp_le {i : Nat} (hi : 1 ≤ i) (m : FMap) : 1 ≤ i / gExp env i m :=
  Nat.div_pos (Nat.le_of_dvd hi (Nat.gcd_dvd_left _ _)) (Nat.gcd_pos_of_pos_left _ hi)

theorem normalize_p {r : Real} (hr : r.Ix) : Post (normalize env r) Ix := by
  unfold normalize
  refine .bind (P := fun _ => True) (.ite (.bind Rational.ofInt_p fun _ _ => .bind Rational.div_p fun _ _ => .bind (.nf (he.ofPow _ _)) fun _ _ =>
    .bind Rational.mul_p fun _ _ => .ok trivial) (.ok trivial)) fun x _ => ?_
  refine .bind (decompose_p he) fun fs _ => .bind (stripAll_p he hr) fun y _ => ?_
  refine .bind (P := fun _ => True) (.ite (.bind (decompose_p he) fun _ _ => .ok trivial) (.ok trivial)) fun z _ => ?_
  refine .bind (P := fun w : Rational × Nat => 1 ≤ w.2) (.ite (.bind (rebuild_p he) fun _ _ => .bind Rational.ofInt_p fun _ _ =>
    .ok (gExp_le hr _)) (.ok hr)) fun w hw => ?_
  refine .bind Rational.eqInt_p fun a _ => .bind Rational.eqInt_p fun b _ => .ite (.bind Rational.ofInt_p fun _ _ => .ok ?_) (.ok ?_)
  · exact le_refl 1
  · show 1 ≤ (if a = true then 1 else w.2)
    split
    · exact le_refl 1
    · exact hw

theorem mk3_p {c r : Rational} {i : Nat} (hi : 1 ≤ i) : Post (mk3 env c r i) Ix := normalize_p he hi

theorem ofRational_p {c : Rational} : Post (ofRational env c) Ix := .bind Rational.ofInt_p fun _ _ => mk3_p he (le_refl 1)

theorem ofInt_p {k : Int} : Post (ofInt env k) Ix := .bind Rational.ofInt_p fun _ _ => ofRational_p he

omit he in
theorem isEquivalentWith_p {a b : Real} : Post (isEquivalentWith env a b) fun _ => True := by
  unfold isEquivalentWith
  exact .bind Rational.eq_p fun _ _ => .bind (.ite Rational.eqInt_p (.ok trivial)) fun _ _ => .ite (.ok trivial) (.ite (.ok trivial)
    (.bind Rational.eq_p fun _ _ => .ok trivial))

theorem add_p {a b : Real} (ha : a.Ix) : Post (add env a b) Ix := by
  unfold add
  exact .bind isEquivalentWith_p fun _ _ => .ite .throw (.bind Rational.add_nf fun _ _ => normalize_p he ha)

theorem negate_p {a : Real} (ha : a.Ix) : Post (negate env a) Ix := .bind Rational.negate_p fun _ _ => mk3_p he ha

theorem sub_p {a b : Real} (ha : a.Ix) (hb : b.Ix) : Post (sub env a b) Ix :=
  .bind (negate_p he hb) fun _ _ => .bind (add_p he ha) fun _ hs => normalize_p he hs

theorem ratPow_p {a p : Rational} : Post (Rational.pow env.M env.fl a p) fun _ => True := Rational.pow_p he.powT

omit he in
theorem lcmU_p {a b : Nat} : Post (lcmU env a b) fun l => l = Nat.lcm a b := by
  unfold lcmU
  exact .ite (.ok rfl) .ub

/-- a product: a zero index is caught by the division of the common index. -/
theorem mul_p {a b : Real} : Post (mul env a b) Ix := by
  unfold mul
  refine .bind lcmU_p fun l hl => ?_
  split
  · exact .ub
  · rename_i h
    push Not at h
    refine .bind Rational.ofInt_p fun _ _ => .bind (ratPow_p he) fun _ _ => .bind Rational.ofInt_p fun _ _ => .bind (ratPow_p he) fun _ _ =>
      .bind Rational.mul_p fun _ _ => .bind Rational.mul_p fun _ _ => normalize_p he ?_
    subst hl
    exact Nat.lcm_pos (by omega) (by omega)

omit he in
theorem inverse_p {a : Real} (ha : a.Ix) : Post (inverse env a) Ix :=
  .bind Rational.inverse_p fun _ _ => .bind Rational.inverse_p fun _ _ => .ok ha

omit he in
theorem inverse_nf {a : Real} : Post (inverse env a) fun _ => True :=
  .bind Rational.inverse_p fun _ _ => .bind Rational.inverse_p fun _ _ => .ok trivial

theorem div_p {a b : Real} : Post (div env a b) Ix := .bind inverse_nf fun _ _ => mul_p he

omit he in
theorem den_mod {p : Rational} (hp : p.Exp env.M) : 1 ≤ (p.den % (2 * (env.M + 1))).toNat := by
  obtain ⟨h0, h1⟩ := hp
  have hpos : 0 < |p.den| := abs_pos.2 h0
  have h2 : 0 ≤ p.den % (2 * (env.M + 1)) := Int.emod_nonneg _ (by omega)
  have h3 : p.den % (2 * (env.M + 1)) ≠ 0 := by
    intro h
    have := Int.le_of_dvd hpos ((dvd_abs _ _).2 (Int.dvd_of_emod_eq_zero h))
    omega
  omega

theorem powPos_p {a : Real} {p : Rational} (ha : a.Ix) (hp : p.Exp env.M) : Post (powPos env a p) Ix := by
  unfold powPos
  refine .ite (.bind (ratPow_p he) fun _ _ => .bind (ratPow_p he) fun _ _ => normalize_p he ha) ?_
  refine .bind Rational.ofInt_p fun _ _ => .bind (ratPow_p he) fun _ _ => ?_
  refine .bind (P := fun _ => True) (.ite .exn (.ok trivial)) fun _ _ => ?_
  exact .bind (ratPow_p he) fun _ _ => .bind Rational.ofInt_p fun _ _ => .bind (mk3_p he (den_mod hp)) fun _ _ =>
    .bind (mul_p he) fun _ h => normalize_p he h

/-- no recursion for an exponent that is not negative. -/
theorem powN_nonneg {f : Nat} {a : Real} {p : Rational} (ha : a.Ix) (hp : p.Exp env.M) (h0 : 0 ≤ p.num) : Post (powN env (f + 1) a p) Ix := by
  unfold powN
  refine .bind Rational.eqInt_p fun _ _ => .ite (ofInt_p he) (.bind Rational.eqInt_p fun _ _ => .ite (.ok ha) ?_)
  refine .bind Rational.ofInt_p fun z hz => .bind Rational.lt_p fun c hc => ?_
  rw [hz.1] at hc
  have : c = false := by rw [hc]; simp; omega
  subst this
  exact powPos_p he ha hp

theorem powN_step {f : Nat} {a : Real} {p : Rational} (ha : a.Ix) (hp : p.Exp env.M) (h0 : p.num < 0)
    (h : ∀ (a : Real) (q : Rational), a.Ix → q.Exp env.M → (0 ≤ q.num ∨ (q.num < 0 ∧ q.den = 1 ∧ p.den ≠ 1)) → Post (powN env f a q) Ix) :
    Post (powN env (f + 1) a p) Ix := by
  unfold powN
  refine .bind Rational.eqInt_p fun _ _ => .ite (ofInt_p he) (.bind Rational.eqInt_p fun _ _ => .ite (.ok ha) ?_)
  refine .bind Rational.ofInt_p fun z hz => .bind Rational.lt_p fun c hc => ?_
  refine .ite ?_ (powPos_p he ha hp)
  exact .bind (inverse_p ha) fun _ hi => .bind (Rational.negate_p.and (Rational.negate_sign h0)) fun q hq => h _ _ hi hq.1 hq.2

theorem pow_p {a : Real} {p : Rational} (ha : a.Ix) (hp : p.Exp env.M) : Post (pow env a p) Ix := by
  unfold pow
  by_cases h0 : 0 ≤ p.num
  · exact powN_nonneg he ha hp h0
  · refine powN_step he ha hp (by omega) fun a q ha hq h => ?_
    rcases h with h | ⟨h, h1, -⟩
    · exact powN_nonneg he ha hq h
    · refine powN_step he ha hq h fun a r ha hr h => ?_
      rcases h with h | ⟨-, -, h3⟩
      · exact powN_nonneg he ha hr h
      · exact absurd h1 h3

omit he in
theorem eq_p {a b : Real} : Post (eq env a b) fun _ => True := by
  unfold eq
  exact .bind Rational.eq_p fun _ _ => .ite (.bind Rational.eq_p fun _ _ => .ite (.ok trivial) (.ok trivial)) (.ok trivial)

omit he in
theorem isRational_p {a : Real} : Post (isRational env a) fun _ => True := by
  unfold isRational
  exact .bind Rational.eqInt_p fun _ _ => .ite (.ok trivial) (.bind Rational.eqInt_p fun _ _ => .ite (.ok trivial)
    (.bind Rational.eqInt_p fun _ _ => .ite (.ok trivial) (.ok trivial)))

omit he in
theorem toRational_p {a : Real} : Post (toRational env a) (Rational.Exp env.M) :=
  .bind isRational_p fun _ _ => .bind .assert fun _ _ => Rational.mul_p

omit he in
theorem toStr_p {a : Real} : Post (toStr env a) fun _ => True := by
  unfold toStr
  exact .bind Rational.eqInt_p fun _ _ => .ite (.ok trivial) (.bind isRational_p fun _ _ => .ite (.ok trivial)
    (.bind Rational.eqInt_p fun _ _ => .bind (.ite (.ok trivial) Rational.eqInt_p) fun _ _ => .ok trivial))

theorem cmpSide_p {c r : Rational} {e k : Nat} : Post (cmpSide env c e r k) fun _ => True :=
  .bind Rational.ofInt_p fun _ _ => .bind (ratPow_p he) fun _ _ => .bind Rational.ofInt_p fun _ _ => .bind (ratPow_p he) fun _ _ => Rational.mul_p.triv

omit he in
theorem leZero_p {a : Rational} : Post (leZero env a) fun _ => True := .bind Rational.ofInt_p fun _ _ => Rational.le_p
omit he in
theorem geZero_p {a : Rational} : Post (geZero env a) fun _ => True := .bind Rational.ofInt_p fun _ _ => Rational.ge_p

theorem lt_p {a b : Real} : Post (lt env a b) fun _ => True := by
  unfold lt
  refine .bind eq_p fun _ _ => .ite (.ok trivial) (.bind leZero_p fun _ _ => .bind (.ite geZero_p (.ok trivial)) fun _ _ => .ite (.ok trivial) ?_)
  refine .bind geZero_p fun _ _ => .bind (.ite leZero_p (.ok trivial)) fun _ _ => .ite (.ok trivial) ?_
  refine .bind (.ite leZero_p (.ok trivial)) fun _ _ => .ite ?_ ?_
  · exact .bind Rational.negate_p fun _ _ => .bind (cmpSide_p he) fun _ _ => .bind Rational.negate_p fun _ _ => .bind (cmpSide_p he) fun _ _ => Rational.gt_p
  · exact .bind (cmpSide_p he) fun _ _ => .bind (cmpSide_p he) fun _ _ => Rational.lt_p.triv

theorem gt_p {a b : Real} : Post (gt env a b) fun _ => True :=
  .bind (lt_p he) fun _ _ => .ite (.ok trivial) (.bind eq_p fun _ _ => .ok trivial)

end Real
end Symxx.Num

namespace Symxx.Sym
open Symxx.Num Symxx.Res

/-- no step outside the modelled code runs forever, and sorting permutes. -/
structure FEnv.Ends (env : FEnv) : Prop extends env.toEnv.Ends where
  sort : ∀ p, env.sort p ≠ .fuel
  perm : SortOk env.sort

/-- every exponent has a denominator. -/
def Syms.Ix (M : Int) (s : Syms) : Prop := ∀ p ∈ s, p.2.Exp M
/-- a positive index; every exponent has a denominator. -/
def Term.Ix (M : Int) (t : Term) : Prop := t.coe.Ix ∧ Syms.Ix M t.syms
def Poly.Ix (M : Int) (p : Poly) : Prop := ∀ t ∈ p, Term.Ix M t
def Frac.Ix (M : Int) (f : Frac) : Prop := Poly.Ix M f.num ∧ Poly.Ix M f.den
def Node.Ix (M : Int) : Node → Prop
  | .frac f => f.Ix M
  | .op _ l r => l.Ix M ∧ r.Ix M
/-- bindings of roots of positive index. -/
def BindIx (e : List (List Char × Num.Real)) : Prop := ∀ p ∈ e, p.2.Ix

namespace Syms
variable {M : Int} {s t : Syms}

theorem Ix.cons {p : List Char × Rational} : Ix M (p :: s) ↔ p.2.Exp M ∧ Ix M s := by unfold Ix; simp

theorem addExp_p {k : List Char} {v : Rational} (hv : v.Exp M) : ∀ {s : Syms}, Ix M s → Post (addExp M s k v) (Ix M) := by
  intro s
  induction s with
  | nil => intro _; exact .ok (Ix.cons.2 ⟨hv, fun _ h => by simp at h⟩)
  | cons p s ih =>
    intro hs
    obtain ⟨k', v'⟩ := p
    have h := Ix.cons.1 hs
    unfold addExp
    refine .ite (.ok (Ix.cons.2 ⟨hv, hs⟩)) (.ite ?_ ?_)
    · exact .bind (Rational.add_p h.1.1 hv.1) fun _ hq => .ok (Ix.cons.2 ⟨hq, h.2⟩)
    · exact .bind (ih h.2) fun _ ht => .ok (Ix.cons.2 ⟨h.1, ht⟩)

theorem merge_p : ∀ {t s : Syms}, Ix M s → Ix M t → Post (merge M s t) (Ix M) := by
  intro t
  induction t with
  | nil => intro s hs _; unfold merge; exact .ok hs
  | cons p t ih =>
    intro s hs ht
    unfold merge
    exact .bind (addExp_p (Ix.cons.1 ht).1 hs) fun _ h => ih h (Ix.cons.1 ht).2

theorem scale_p {q : Rational} : ∀ {s : Syms}, Post (scale M q s) (Ix M) := by
  intro s
  induction s with
  | nil => exact .ok fun _ h => by simp at h
  | cons p s ih =>
    unfold scale
    exact .bind Rational.mul_p fun _ hq => .bind ih fun _ ht => .ok (Ix.cons.2 ⟨hq, ht⟩)

theorem eqGo_p : ∀ {s t : Syms}, Post (eqGo M s t) fun _ => True := by
  intro s
  induction s with
  | nil => intro t; unfold eqGo; exact .ok trivial
  | cons p s ih =>
    intro t
    cases t with
    | nil => exact .ok trivial
    | cons q t =>
      unfold eqGo
      exact .ite (.bind Rational.eq_p fun _ _ => .ite ih (.ok trivial)) (.ok trivial)

theorem eq_p : Post (eq M s t) fun _ => True := .ite eqGo_p (.ok trivial)

theorem dropZero_p : ∀ {s : Syms}, Ix M s → Post (dropZero M s) (Ix M) := by
  intro s
  induction s with
  | nil => intro h; exact .ok h
  | cons p s ih =>
    intro h
    unfold dropZero
    refine .bind Rational.eqInt_p fun z _ => .bind (ih (Ix.cons.1 h).2) fun t ht => .ok ?_
    split
    · exact ht
    · exact Ix.cons.2 ⟨(Ix.cons.1 h).1, ht⟩

end Syms

namespace Term
variable {env : Env} (he : env.Ends)
include he

omit he in
theorem mk'_p {c : Num.Real} {s : Syms} (hc : c.Ix) (hs : s.Ix env.M) : Post (mk' env c s) (Ix env.M) :=
  .bind (Syms.dropZero_p hs) fun _ h => .ok ⟨hc, h⟩

omit he in
theorem ofReal_ix {M : Int} {c : Num.Real} (hc : c.Ix) : (ofReal c).Ix M := ⟨hc, fun _ h => by simp [ofReal] at h⟩

theorem ofInt_p {n : Int} : Post (ofInt env n) (Ix env.M) := .bind (Real.ofInt_p he) fun _ h => .ok (ofReal_ix h)

omit he in
theorem ofSym_p {c : Num.Real} {x : List Char} (hc : c.Ix) : Post (ofSym env c x) (Ix env.M) :=
  .bind Rational.ofInt_p fun _ h => .ok ⟨hc, Syms.Ix.cons.2 ⟨h.2, fun _ h => by simp at h⟩⟩

theorem substLoop_p {e : List (List Char × Num.Real)} (hb : BindIx e) : ∀ {s : Syms} {c : Num.Real}, s.Ix env.M → c.Ix →
    Post (substLoop env e s c) Real.Ix := by
  intro s
  induction s with
  | nil => intro c _ hc; exact .ok hc
  | cons p s ih =>
    intro c hs hc
    unfold substLoop
    split
    · rename_i x hx
      refine .bind (Real.pow_p he ?_ (Syms.Ix.cons.1 hs).1) fun _ _ => .bind (Real.mul_p he) fun _ h => ih (Syms.Ix.cons.1 hs).2 h
      unfold lookup at hx
      obtain ⟨q, hq, rfl⟩ := Option.map_eq_some_iff.1 hx
      exact hb _ (List.mem_of_find?_eq_some hq)
    · exact ih (Syms.Ix.cons.1 hs).2 hc

theorem substitute_p {e : List (List Char × Num.Real)} (hb : BindIx e) {t : Term} (ht : t.Ix env.M) : Post (substitute env e t) (Ix env.M) :=
  .bind (substLoop_p he hb ht.2 ht.1) fun _ h => .ok ⟨h, fun p hp => ht.2 p (List.mem_filter.1 hp).1⟩

theorem mul_p {a b : Term} (ha : a.Ix env.M) (hb : b.Ix env.M) : Post (mul env a b) (Ix env.M) :=
  .bind (Syms.merge_p ha.2 hb.2) fun _ h => .bind (Real.mul_p he) fun _ hc => .bind (Syms.dropZero_p h) fun _ h => .ok ⟨hc, h⟩

theorem divReal_p {a : Term} {r : Num.Real} (ha : a.Ix env.M) : Post (divReal env a r) (Ix env.M) :=
  .bind (Real.div_p he) fun _ hc => .bind (Syms.dropZero_p ha.2) fun _ h => .ok ⟨hc, h⟩

theorem pow_p {a : Term} {q : Rational} (ha : a.Ix env.M) (hq : q.Exp env.M) : Post (pow env a q) (Ix env.M) :=
  .bind (Real.pow_p he ha.1 hq) fun _ hc => .bind Syms.scale_p fun _ h => .bind (Syms.dropZero_p h) fun _ h => .ok ⟨hc, h⟩

theorem negate_p {a : Term} (ha : a.Ix env.M) : Post (negate env a) (Ix env.M) :=
  .bind (Real.negate_p he ha.1) fun _ hc => mk'_p hc ha.2

omit he in
theorem tryEval_ix {a : Term} {r : Num.Real} (ha : a.Ix env.M) (h : a.tryEval = some r) : r.Ix := by
  unfold tryEval at h
  split at h
  · cases h; exact ha.1
  · cases h

omit he in
theorem eq_p {a b : Term} : Post (eq env a b) fun _ => True := .bind Real.eq_p fun _ _ => .ite Syms.eq_p (.ok trivial)
omit he in
theorem isEquivalentWith_p {a b : Term} : Post (isEquivalentWith env a b) fun _ => True :=
  .bind Syms.eq_p fun _ _ => .ite Real.isEquivalentWith_p (.ok trivial)

theorem coeIs_p {c : Num.Real} {k : Int} : Post (coeIs env c k) fun _ => True := .bind (Real.ofInt_p he) fun _ _ => Real.eq_p
theorem isPositive_p {a : Term} : Post (isPositive env a) fun _ => True := .bind (Real.ofInt_p he) fun _ _ => Real.gt_p he

omit he in
theorem symsStr_p : ∀ {s : Syms}, Post (symsStr env s) fun _ => True := by
  intro s
  induction s with
  | nil => exact .ok trivial
  | cons p s ih =>
    unfold symsStr
    exact .bind (.bind (R := fun _ => True) Rational.eqInt_p fun _ _ => .ok trivial) fun _ _ => .bind ih fun _ _ => .ok trivial

theorem toStr_p {a : Term} : Post (toStr env a) fun _ => True := by
  unfold toStr
  refine .bind (coeIs_p he) fun _ _ => .ite (.ok trivial) (.bind (coeIs_p he) fun _ _ => .bind (P := fun _ => True) (.ite ?_ (.ok trivial)) fun _ _ =>
    .bind symsStr_p fun _ _ => .ok trivial)
  exact .bind (coeIs_p he) fun _ _ => .ite (.ok trivial) Real.toStr_p

omit he in
theorem toRational_p {a : Term} : Post (toRational env a) (Rational.Exp env.M) := .bind .assert fun _ _ => Real.toRational_p

end Term

theorem solveLoop_p {rec : Int → Res (List (List Int))} (hr : ∀ n, Post (rec n) fun _ => True) : ∀ {l : List (Int × Int)},
    Post (solveLoop rec l) fun _ => True := by
  intro l
  induction l with
  | nil => exact .ok trivial
  | cons r l ih =>
    unfold solveLoop
    exact .bind (hr _) fun _ _ => .bind ih fun _ _ => .ok trivial

theorem solveEq_p : ∀ {m : Nat} {n : Int}, 2 ≤ m → Post (solveEq m n) fun _ => True := by
  intro m
  induction m with
  | zero => intro n h; omega
  | succ m ih =>
    intro n h
    match m, h with
    | 1, _ => exact .ok trivial
    | m + 2, _ => exact solveLoop_p fun k => ih (by omega)

namespace Poly
variable {env : FEnv}

theorem Ix.cons {M : Int} {t : Term} {p : Poly} : Ix M (t :: p) ↔ t.Ix M ∧ Ix M p := by unfold Ix; simp
theorem Ix.append {M : Int} {p q : Poly} : Ix M (p ++ q) ↔ Ix M p ∧ Ix M q := by
  unfold Ix
  simp only [List.mem_append]
  exact ⟨fun h => ⟨fun t ht => h t (.inl ht), fun t ht => h t (.inr ht)⟩, fun h t ht => ht.elim (h.1 t) (h.2 t)⟩
theorem Ix.nil {M : Int} : Ix M [] := fun _ h => by simp at h
theorem Ix.single {M : Int} {t : Term} (h : t.Ix M) : Ix M [t] := Ix.cons.2 ⟨h, .nil⟩

theorem mapM_p {M : Int} {f : Term → Res Term} : ∀ {p : Poly}, (∀ t ∈ p, Post (f t) (Term.Ix M)) → Post (mapM f p) (Ix M) := by
  intro p
  induction p with
  | nil => intro _; exact .ok .nil
  | cons t p ih =>
    intro h
    unfold mapM
    exact .bind (h t (by simp)) fun _ ht => .bind (ih fun t ht => h t (by simp [ht])) fun _ hp => .ok (Ix.cons.2 ⟨ht, hp⟩)

section
variable {e : Env} (he : e.Ends)
include he

theorem mergeAdj_p (n : Nat) : ∀ {p : Poly}, p.length ≤ n → Ix e.M p → Post (mergeAdj e p) (Ix e.M) := by
  induction n with
  | zero =>
    intro p hl hp
    match p, hl with
    | [], _ => unfold mergeAdj; exact .ok .nil
  | succ n ih =>
    intro p hl hp
    match p, hl with
    | [], _ => unfold mergeAdj; exact .ok .nil
    | [t], _ => unfold mergeAdj; exact .ok hp
    | a :: b :: rest, hl =>
      unfold mergeAdj
      have h1 := Ix.cons.1 hp
      have h2 := Ix.cons.1 h1.2
      simp only [List.length_cons] at hl
      refine .bind Term.isEquivalentWith_p fun _ _ => .ite ?_ ?_
      · exact .bind (Real.add_p he h1.1.1) fun _ hc => .bind (Term.mk'_p hc h1.1.2) fun _ ht => ih (by simp; omega) (Ix.cons.2 ⟨ht, h2.2⟩)
      · exact .bind (ih (by simp; omega) h1.2) fun _ hr => .ok (Ix.cons.2 ⟨h1.1, hr⟩)

theorem tryEvalLoop_p : ∀ {p : Poly} {r : Num.Real}, r.Ix → Post (tryEvalLoop e p r) fun o => ∀ x, o = some x → x.Ix := by
  intro p
  induction p with
  | nil => intro r hr; exact .ok fun x hx => by cases hx; exact hr
  | cons t p ih =>
    intro r hr
    unfold tryEvalLoop
    split
    · exact .ok fun x hx => by cases hx
    · exact .bind Real.isEquivalentWith_p fun _ _ => .ite (.bind (Real.add_p he hr) fun _ h => ih h) (.ok fun x hx => by cases hx)

theorem tryEval_p {p : Poly} : Post (tryEval e p) fun o => ∀ x, o = some x → x.Ix := .bind (Real.ofInt_p he) fun _ h => tryEvalLoop_p he h

theorem products_p : ∀ {p q : Poly}, Ix e.M p → Ix e.M q → Post (products e p q) (Ix e.M) := by
  intro p
  induction p with
  | nil => intro q _ _; unfold products; exact .ok .nil
  | cons t p ih =>
    intro q hp hq
    unfold products
    exact .bind (mapM_p fun u hu => Term.mul_p he (Ix.cons.1 hp).1 (hq u hu)) fun _ ha => .bind (ih (Ix.cons.1 hp).2 hq) fun _ hb =>
      .ok (Ix.append.2 ⟨ha, hb⟩)

theorem negate_p {p : Poly} (hp : Ix e.M p) : Post (negate e p) (Ix e.M) := mapM_p fun t ht => Term.negate_p he (hp t ht)

omit he in
theorem divFact_p {M : Int} : ∀ {n : Nat} {q : Rational}, Post (divFact M n q) fun _ => True := by
  intro n
  induction n with
  | zero => intro q; exact .ok trivial
  | succ n ih => intro q; exact .bind ih fun _ _ => .bind Rational.ofInt_p fun _ _ => Rational.div_p.triv

omit he in
theorem divFacts_p {M : Int} : ∀ {l : List Int} {q : Rational}, Post (divFacts M l q) fun _ => True := by
  intro l
  induction l with
  | nil => intro q; exact .ok trivial
  | cons n l ih => intro q; exact .bind divFact_p fun _ _ => ih

theorem powerProd_p : ∀ {p : Poly} {l : List Int} {acc : Term}, Ix e.M p → acc.Ix e.M → Post (powerProd e p l acc) (Term.Ix e.M) := by
  intro p
  induction p with
  | nil => intro l acc _ ha; unfold powerProd; exact .ok ha
  | cons t p ih =>
    intro l acc hp ha
    cases l with
    | nil => exact .ok ha
    | cons n l =>
      unfold powerProd
      exact .bind Rational.ofInt_p fun _ hq => .bind (Term.pow_p he (Ix.cons.1 hp).1 hq.2) fun _ hx => .bind (Term.mul_p he ha hx) fun _ h =>
        ih (Ix.cons.1 hp).2 h

theorem expand_p {p : Poly} (hp : Ix e.M p) {k : Int} : ∀ {l : List (List Int)}, Post (expand e p k l) (Ix e.M) := by
  intro l
  induction l with
  | nil => exact .ok .nil
  | cons v l ih =>
    unfold expand
    refine .bind (P := Term.Ix e.M) ?_ fun _ ht => .bind ih fun _ hp => .ok (Ix.cons.2 ⟨ht, hp⟩)
    exact .bind Rational.ofInt_p fun _ _ => .bind divFacts_p fun _ _ => .bind (Real.ofRational_p he) fun _ hc =>
      powerProd_p he hp (Term.ofReal_ix hc)

omit he in
theorem eqGo_p : ∀ {p q : Poly}, Post (eqGo e p q) fun _ => True := by
  intro p
  induction p with
  | nil => intro q; unfold eqGo; exact .ok trivial
  | cons t p ih =>
    intro q
    cases q with
    | nil => exact .ok trivial
    | cons u q =>
      unfold eqGo
      exact .bind Term.eq_p fun _ _ => .ite ih (.ok trivial)

omit he in
theorem eq_p {p q : Poly} : Post (eq e p q) fun _ => True := .ite eqGo_p (.ok trivial)

theorem substitute_p {b : List (List Char × Num.Real)} (hb : BindIx b) {p : Poly} (hp : Ix e.M p) : Post (substitute e b p) (Ix e.M) :=
  mapM_p fun t ht => Term.substitute_p he hb (hp t ht)

theorem isZero_p : ∀ {p : Poly}, Post (isZero e p) fun _ => True := by
  intro p
  induction p with
  | nil => exact .ok trivial
  | cons t p ih => unfold isZero; exact .bind (Term.coeIs_p he) fun _ _ => .ite ih (.ok trivial)

theorem nonzeros_p : ∀ {p : Poly}, Post (nonzeros e p) fun _ => True := by
  intro p
  induction p with
  | nil => exact .ok trivial
  | cons t p ih => unfold nonzeros; exact .bind (Term.coeIs_p he) fun _ _ => .bind ih fun _ _ => .ok trivial

theorem strLoop_p : ∀ {p : Poly} {b : Bool}, Ix e.M p → Post (strLoop e p b) fun _ => True := by
  intro p
  induction p with
  | nil => intro b _; exact .ok trivial
  | cons t p ih =>
    intro b hp
    have h := Ix.cons.1 hp
    unfold strLoop
    refine .bind (Term.coeIs_p he) fun _ _ => .ite (ih h.2) (.ite ?_ (.bind (Term.isPositive_p he) fun _ _ => .ite ?_ ?_))
    · exact .bind (Term.toStr_p he) fun _ _ => .bind (ih h.2) fun _ _ => .ok trivial
    · exact .bind (Term.negate_p he h.1) fun _ _ => .bind (Term.toStr_p he) fun _ _ => .bind (ih h.2) fun _ _ => .ok trivial
    · exact .bind (Term.toStr_p he) fun _ _ => .bind (ih h.2) fun _ _ => .ok trivial

theorem toStr_p {p : Poly} (hp : Ix e.M p) : Post (toStr e p) fun _ => True :=
  .ite (.ok trivial) (.bind (nonzeros_p he) fun _ _ => .ite (.ok trivial) (strLoop_p he hp))

omit he in
theorem toRational_p {p : Poly} : Post (toRational e p) fun _ => True := by
  refine .bind Rational.ofInt_p.triv fun z _ => ?_
  induction p generalizing z with
  | nil => exact .ok trivial
  | cons t p ih => unfold toRationalLoop; exact .bind Term.toRational_p fun _ _ => .bind Rational.add_nf fun _ _ => ih _

end

variable (he : env.Ends)
include he

theorem normalize_p {p : Poly} (hp : Ix env.M p) : Post (normalize env p) (Ix env.M) :=
  .bind (P := Ix env.M) ⟨he.sort p, fun q hq t ht => hp t ((he.perm p q hq).mem_iff.1 ht)⟩ fun q hq =>
    mergeAdj_p he.toEnds q.length (le_refl _) hq

theorem mk'_p {p : Poly} (hp : Ix env.M p) : Post (mk' env p) (Ix env.M) := normalize_p he hp
theorem mkReal_p {r : Num.Real} (hr : r.Ix) : Post (mk' env [Term.ofReal r]) (Ix env.M) := normalize_p he (.single (Term.ofReal_ix hr))

theorem addAssign_p {p q : Poly} (hp : Ix env.M p) (hq : Ix env.M q) : Post (addAssign env p q) (Ix env.M) :=
  normalize_p he (Ix.append.2 ⟨hp, hq⟩)

theorem add_p {p q : Poly} (hp : Ix env.M p) (hq : Ix env.M q) : Post (add env p q) (Ix env.M) := by
  unfold add
  refine .bind (tryEval_p he.toEnds) fun a ha => .bind (tryEval_p he.toEnds) fun b _ => ?_
  split
  · exact .bind (Real.add_p he.toEnds (ha _ rfl)) fun _ h => mkReal_p he h
  · exact addAssign_p he hp hq

theorem subAssign_p {p q : Poly} (hp : Ix env.M p) (hq : Ix env.M q) : Post (subAssign env p q) (Ix env.M) :=
  .bind (negate_p he.toEnds hq) fun _ h => .bind (addAssign_p he hp h) fun _ h => normalize_p he h

theorem sub_p {p q : Poly} (hp : Ix env.M p) (hq : Ix env.M q) : Post (sub env p q) (Ix env.M) := by
  unfold sub
  refine .bind (tryEval_p he.toEnds) fun a ha => .bind (tryEval_p he.toEnds) fun b hb => ?_
  split
  · exact .bind (Real.sub_p he.toEnds (ha _ rfl) (hb _ rfl)) fun _ h => mkReal_p he h
  · exact subAssign_p he hp hq

theorem mulAssign_p {p q : Poly} (hp : Ix env.M p) (hq : Ix env.M q) : Post (mulAssign env p q) (Ix env.M) :=
  .bind (products_p he.toEnds hp hq) fun _ h => normalize_p he h

theorem mul_p {p q : Poly} (hp : Ix env.M p) (hq : Ix env.M q) : Post (mul env p q) (Ix env.M) := by
  unfold mul
  refine .bind (tryEval_p he.toEnds) fun a ha => .bind (tryEval_p he.toEnds) fun b hb => ?_
  split
  · exact .bind (Real.mul_p he.toEnds) fun _ h => mkReal_p he h
  · exact mulAssign_p he hp hq

theorem divReal_p {p : Poly} {r : Num.Real} (hp : Ix env.M p) : Post (divReal env p r) (Ix env.M) :=
  .bind (mapM_p fun t ht => Term.divReal_p he.toEnds (hp t ht)) fun _ h => normalize_p he h

/-- the enumeration of the exponents is reached with at least two terms only. -/
theorem pow_p {p : Poly} {i : Rational} (hp : Ix env.M p) (hi : i.Exp env.M) : Post (pow env p i) (Ix env.M) := by
  unfold pow
  refine .bind Rational.eqInt_p fun _ _ => .ite (.bind (Term.ofInt_p he.toEnds) fun _ h => mk'_p he (.single h))
    (.bind Rational.eqInt_p fun _ _ => .ite (.ok hp) ?_)
  split
  · exact .bind (Term.pow_p he.toEnds (Ix.cons.1 hp).1 hi) fun _ h => mk'_p he (.single h)
  · rename_i hne
    refine (fun H => ?_ : _) (tryEval_p he.toEnds (p := p))
    by_cases hz : p = []
    · subst hz
      have h0 : ∀ z, tryEvalLoop env.toEnv [] z = .ok (some z) := fun _ => rfl
      unfold tryEval
      simp only [h0]
      refine .bind (P := fun o => ∃ x, o = some x ∧ x.Ix) (.bind (Real.ofInt_p he.toEnds) fun z hz => .ok ⟨z, rfl, hz⟩) fun o ho => ?_
      obtain ⟨x, rfl, hx⟩ := ho
      exact .bind (Real.pow_p he.toEnds hx hi) fun _ h => mkReal_p he h
    · refine .bind H fun o ho => ?_
      split
      · exact .bind (Real.pow_p he.toEnds (ho _ rfl) hi) fun _ h => mkReal_p he h
      · refine .bind .assert fun _ _ => .bind Rational.toT_p fun _ _ => .bind (P := fun _ => True) (.ite .exn (.ok trivial)) fun _ _ => ?_
        refine .bind (solveEq_p ?_) fun _ _ => .bind (expand_p he.toEnds hp) fun _ h => mk'_p he h
        match p, hz, hne with
        | [t], _, hne => exact absurd rfl (hne t)
        | a :: b :: r, _, _ => simp

end Poly

namespace Frac
variable {env : FEnv}

theorem multLoop_p {M : Int} : ∀ {p : Poly} {m : Int}, Post (multLoop M p m) fun _ => True := by
  intro p
  induction p with
  | nil => intro m; exact .ok trivial
  | cons t p ih => intro m; unfold multLoop; exact .bind Rational.chk_p fun _ _ => ih

theorem gcdInner_p {M : Int} {n : Term} : ∀ {p : Poly} {g : Int}, Post (gcdInner M n p g) fun _ => True := by
  intro p
  induction p with
  | nil => intro g; exact .ok trivial
  | cons t p ih =>
    intro g
    unfold gcdInner
    exact .bind Rational.toT_p fun _ _ => .bind Rational.toT_p fun _ _ => .bind (.of_clean (gcdT_clean _ _ _)) fun _ _ =>
      .ite .ub (.ite ih (.ok trivial))

theorem gcdOuter_p {M : Int} {d : Poly} : ∀ {p : Poly} {g : Int}, Post (gcdOuter M d p g) fun _ => True := by
  intro p
  induction p with
  | nil => intro g; exact .ok trivial
  | cons t p ih =>
    intro g
    unfold gcdOuter
    refine .bind gcdInner_p fun o _ => ?_
    split
    · exact .ok trivial
    · exact ih

section
variable {e : Env} (he : e.Ends)
include he

theorem scaleAll_p {m : Int} {p : Poly} (hp : p.Ix e.M) : Post (scaleAll e m p) (Poly.Ix e.M) :=
  Poly.mapM_p fun t ht => .bind (Term.ofInt_p he) fun _ h => Term.mul_p he (hp t ht) h

theorem denIsOne_p {d : Poly} : Post (denIsOne e d) fun _ => True := by
  unfold denIsOne
  split
  · exact .bind (Term.coeIs_p he) fun _ _ => .ite (.ok trivial) (.ok trivial)
  · exact .ok trivial

theorem outputNeedParen_p {a : Frac} : Post (outputNeedParen e a) fun _ => True := .bind (denIsOne_p he) fun _ _ => .ok trivial

theorem toStr_p {a : Frac} (ha : a.Ix e.M) : Post (toStr e a) fun _ => True :=
  .ite (.ok trivial) (.bind (denIsOne_p he) fun _ _ => .ite (Poly.toStr_p he ha.1) (.bind (Poly.toStr_p he ha.1) fun _ _ =>
    .bind (Poly.toStr_p he ha.2) fun _ _ => .ok trivial))

omit he in
theorem toRational_p {a : Frac} : Post (toRational e a) (Rational.Exp e.M) :=
  .bind Poly.toRational_p fun _ _ => .bind Poly.toRational_p fun _ _ => Rational.div_p

end

variable (he : env.Ends)
include he

theorem normalize_p {f : Frac} (hf : f.Ix env.M) : Post (normalize env f) (Ix env.M) := by
  unfold normalize
  refine .bind (Poly.normalize_p he hf.1) fun n hn => .bind (Poly.normalize_p he hf.2) fun d hd => .bind multLoop_p fun _ _ => .bind multLoop_p fun _ _ =>
    .bind (scaleAll_p he.toEnds hn) fun n hn => .bind (scaleAll_p he.toEnds hd) fun d hd => ?_
  split
  · refine .bind Rational.toT_p fun _ _ => .bind Rational.toT_p fun _ _ => .bind (.of_clean (gcdT_clean _ _ _)) fun _ _ => .bind gcdOuter_p fun o _ => ?_
    split
    · exact .ok ⟨hn, hd⟩
    · exact .bind (Real.ofInt_p he.toEnds) fun _ _ => .bind (Poly.divReal_p he hn) fun _ hn => .bind (Poly.divReal_p he hd) fun _ hd => .ok ⟨hn, hd⟩
  · exact .ub

theorem onePoly_p : Post (onePoly env) (Poly.Ix env.M) := .bind (Term.ofInt_p he.toEnds) fun _ h => Poly.mk'_p he (.single h)
theorem ofPoly_p {p : Poly} (hp : p.Ix env.M) : Post (ofPoly env p) (Ix env.M) := .bind (onePoly_p he) fun _ h => normalize_p he ⟨hp, h⟩
theorem ofTerm_p {t : Term} (ht : t.Ix env.M) : Post (ofTerm env t) (Ix env.M) := .bind (Poly.mk'_p he (.single ht)) fun _ h => ofPoly_p he h
theorem ofReal_p {r : Num.Real} (hr : r.Ix) : Post (ofReal env r) (Ix env.M) := ofTerm_p he (Term.ofReal_ix hr)

theorem mk2_p {n d : Poly} (hn : n.Ix env.M) (hd : d.Ix env.M) : Post (mk2 env n d) (Ix env.M) :=
  .bind (Poly.isZero_p he.toEnds) fun _ _ => .bind .assert fun _ _ => normalize_p he ⟨hn, hd⟩

theorem add_p {a b : Frac} (ha : a.Ix env.M) (hb : b.Ix env.M) : Post (add env a b) (Ix env.M) := by
  unfold add
  refine .bind Poly.eq_p fun _ _ => .ite (.bind (Poly.addAssign_p he ha.1 hb.1) fun _ h => .ok ⟨h, ha.2⟩) ?_
  exact .bind (Poly.mul_p he ha.1 hb.2) fun _ hx => .bind (Poly.mul_p he hb.1 ha.2) fun _ hy => .bind (Poly.add_p he hx hy) fun _ hn =>
    .bind (Poly.mulAssign_p he ha.2 hb.2) fun _ hd => normalize_p he ⟨hn, hd⟩

theorem negate_p {a : Frac} (ha : a.Ix env.M) : Post (negate env a) (Ix env.M) :=
  .bind (Poly.negate_p he.toEnds ha.1) fun _ h => mk2_p he h ha.2

theorem sub_p {a b : Frac} (ha : a.Ix env.M) (hb : b.Ix env.M) : Post (sub env a b) (Ix env.M) :=
  .bind (negate_p he hb) fun _ h => add_p he ha h

theorem subAssign_p {a b : Frac} (ha : a.Ix env.M) (hb : b.Ix env.M) : Post (subAssign env a b) (Ix env.M) :=
  .bind (negate_p he hb) fun _ h => .bind (add_p he ha h) fun _ h => normalize_p he h

theorem mul_p {a b : Frac} (ha : a.Ix env.M) (hb : b.Ix env.M) : Post (mul env a b) (Ix env.M) :=
  .bind (Poly.mulAssign_p he ha.1 hb.1) fun _ hn => .bind (Poly.mulAssign_p he ha.2 hb.2) fun _ hd => normalize_p he ⟨hn, hd⟩

theorem div_p {a b : Frac} (ha : a.Ix env.M) (hb : b.Ix env.M) : Post (div env a b) (Ix env.M) :=
  .bind (Poly.isZero_p he.toEnds) fun _ _ => .bind .assert fun _ _ => .bind (Poly.mulAssign_p he ha.1 hb.2) fun _ hn =>
    .bind (Poly.mulAssign_p he ha.2 hb.1) fun _ hd => normalize_p he ⟨hn, hd⟩

theorem inverse_p {a : Frac} (ha : a.Ix env.M) : Post (inverse env a) (Ix env.M) := mk2_p he ha.2 ha.1

theorem tryEval_p {a : Frac} : Post (tryEval env a) fun o => ∀ x, o = some x → x.Ix := by
  unfold tryEval
  refine .bind (Poly.tryEval_p he.toEnds) fun n _ => .bind (Poly.tryEval_p he.toEnds) fun d _ => ?_
  split
  · exact .bind (Real.div_p he.toEnds) fun _ h => .ok fun x hx => by cases hx; exact h
  · exact .ok fun x hx => by cases hx

theorem pow_p {a : Frac} {i : Rational} (ha : a.Ix env.M) (hi : i.Exp env.M) : Post (pow env a i) (Ix env.M) := by
  unfold pow
  refine .bind (tryEval_p he) fun o ho => ?_
  split
  · exact .bind (Real.pow_p he.toEnds (ho _ rfl) hi) fun _ h => ofReal_p he h
  · exact .bind (Poly.pow_p he ha.1 hi) fun _ hn => .bind (Poly.pow_p he ha.2 hi) fun _ hd => normalize_p he ⟨hn, hd⟩

theorem substitute_p {b : List (List Char × Num.Real)} (hb : BindIx b) {a : Frac} (ha : a.Ix env.M) : Post (substitute env b a) (Ix env.M) :=
  .bind (Poly.substitute_p he.toEnds hb ha.1) fun _ hn => .bind (Poly.substitute_p he.toEnds hb ha.2) fun _ hd =>
    .bind (normalize_p he ⟨hn, hd⟩) fun _ h => .bind (Poly.isZero_p he.toEnds) fun _ _ => .bind .assert fun _ _ => .ok h

end Frac

namespace Node
variable {env : FEnv} (he : env.Ends)
include he

theorem evalOp_p {c : Char} {a b : Frac} (ha : a.Ix env.M) (hb : b.Ix env.M) :
    Post (evalOp env c a b) fun o => ∀ f, o = some f → f.Ix env.M := by
  have wrap : ∀ {x : Res Frac}, Post x (Frac.Ix env.M) → Post (x >>= fun r => .ok (some r)) fun o => ∀ f, o = some f → f.Ix env.M :=
    fun h => .bind h fun r hr => .ok fun f hf => by cases hf; exact hr
  unfold evalOp
  refine .ite (wrap (Frac.add_p he ha hb)) (.ite (wrap (Frac.sub_p he ha hb)) (.ite (wrap (Frac.mul_p he ha hb)) (.ite (wrap (Frac.div_p he ha hb))
    (.ite (.bind (Frac.tryEval_p he) fun o _ => ?_) .throw))))
  split
  · exact .ok fun f hf => by cases hf
  · exact .bind Real.isRational_p fun _ _ => .ite (.bind Frac.toRational_p fun _ hq => wrap (Frac.pow_p he ha hq)) (.ok fun f hf => by cases hf)

theorem tryEval_p : ∀ {n : Node}, n.Ix env.M → Post (tryEval env n) fun o => ∀ f, o = some f → f.Ix env.M := by
  intro n
  induction n with
  | frac f => intro h; exact .ok fun g hg => by cases hg; exact h
  | op c l r ihl ihr =>
    intro h
    unfold tryEval
    refine .bind (ihl h.1) fun a ha => .bind (ihr h.2) fun b hb => ?_
    split
    · exact evalOp_p he (ha _ rfl) (hb _ rfl)
    · exact .ok fun f hf => by cases hf

theorem normalize_p : ∀ {n : Node}, n.Ix env.M → Post (normalize env n) (Ix env.M) := by
  intro n
  induction n with
  | frac f => intro h; exact .ok h
  | op c l r ihl ihr =>
    intro h
    have wrap : ∀ {x : Res Frac}, Post x (Frac.Ix env.M) → Post (x >>= fun r => .ok (Node.frac r)) (Ix env.M) :=
      fun h => .bind h fun r hr => .ok hr
    unfold normalize
    refine .bind (tryEval_p he h.1) fun a ha => .bind (tryEval_p he h.2) fun b hb => ?_
    split
    · have ha := ha _ rfl
      have hb := hb _ rfl
      refine .ite (wrap (Frac.add_p he ha hb)) (.ite (wrap (Frac.sub_p he ha hb)) (.ite (wrap (Frac.mul_p he ha hb)) (.ite (wrap (Frac.div_p he ha hb))
        (.ite (.bind (Frac.tryEval_p he) fun o _ => .bind (P := fun q => ∀ x, q = some x → x.Exp env.M) ?_ fun q hq => ?_) .throw))))
      · split
        · exact .ok fun x hx => by cases hx
        · exact .bind Real.isRational_p fun _ _ => .ite (.bind Real.toRational_p fun q hq => .ok fun x hx => by cases hx; exact hq)
            (.ok fun x hx => by cases hx)
      · split
        · exact .bind (ihl h.1) fun _ h1 => .bind (ihr h.2) fun _ h2 => .ok ⟨h1, h2⟩
        · exact wrap (Frac.pow_p he ha (hq _ rfl))
    · exact .bind (ihr h.2) fun _ h2 => .bind (ihl h.1) fun _ h1 => .ok ⟨h1, h2⟩

theorem substitute_p {b : List (List Char × Num.Real)} (hb : BindIx b) : ∀ {n : Node}, n.Ix env.M → Post (substitute env b n) (Ix env.M) := by
  intro n
  induction n with
  | frac f => intro h; exact .bind (Frac.substitute_p he hb h) fun _ h => .ok h
  | op c l r ihl ihr =>
    intro h
    unfold substitute
    exact .bind (ihl h.1) fun _ h1 => .bind (ihr h.2) fun _ h2 => normalize_p he ⟨h1, h2⟩

theorem toStr_p : ∀ {n : Node}, n.Ix env.M → Post (toStr env.toEnv n) fun _ => True := by
  intro n
  induction n with
  | frac f => intro h; exact Frac.toStr_p he.toEnds h
  | op c l r ihl ihr =>
    intro h
    unfold toStr
    refine .bind (P := fun _ => True) ?_ fun _ _ => .bind (ihl h.1) fun _ _ => .bind (P := fun _ => True) ?_ fun _ _ => .bind (ihr h.2) fun _ _ => .ok trivial
    · cases l with
      | frac f => exact Frac.outputNeedParen_p he.toEnds
      | op c l r => exact .ok trivial
    · cases r with
      | frac f => exact Frac.outputNeedParen_p he.toEnds
      | op c l r => exact .ok trivial

theorem ofLeaf_p : ∀ {l : Parser.Leaf}, Post (ofLeaf env l) (Frac.Ix env.M) := by
  intro l
  cases l with
  | num q => exact .bind (Real.ofRational_p he.toEnds) fun _ h => Frac.ofReal_p he h
  | sym x => exact .bind (Real.ofInt_p he.toEnds) fun _ h => .bind (Term.ofSym_p h) fun _ h => Frac.ofTerm_p he h

theorem ofExpr_p : ∀ {e : Parser.Expr}, Post (ofExpr env e) (Ix env.M) := by
  intro e
  induction e with
  | leaf l => exact .bind (ofLeaf_p he) fun _ h => .ok h
  | node c a b iha ihb => exact .bind iha fun _ h1 => .bind ihb fun _ h2 => .ok ⟨h1, h2⟩

end Node
end Symxx.Sym

namespace Symxx.Parser
open Symxx.Num Symxx.Res

theorem catchNum_p {α : Type} {x : Res α} (h : Post x fun _ => True) : Post (catchNum x) fun _ => True := by
  unfold catchNum
  split
  · exact .throw
  · exact .throw
  · exact h

theorem stoll_p {M : Int} {s : List Char} : Post (stoll M s) fun _ => True := by
  unfold stoll
  extract_lets
  split
  extract_lets
  exact .ite .exn (.ite (.ok trivial) .exn)

theorem ofStr_p {M : Int} {dec : List Char → Res Rational} (hd : ∀ s, dec s ≠ .fuel) {s : List Char} :
    Post (Rational.ofStr M dec s) fun _ => True := by
  unfold Rational.ofStr
  refine .bind (catchNum_p (.ite (.nf (hd s)) ?_)) fun _ _ => .bind .assert fun _ _ => .ok trivial
  split
  · exact .bind stoll_p fun _ _ => .ok trivial
  · exact .bind stoll_p fun _ _ => .bind stoll_p fun _ _ => .ok trivial

section
variable {M : Int} {dec : List Char → Res Rational} (hd : ∀ s, dec s ≠ .fuel)
include hd

theorem parseNumber_p {c : Char} {t : List Char} : Post (parseNumber M dec c t) fun x => x.2.length ≤ t.length :=
  .bind (ofStr_p hd) fun _ _ => .ok ((List.dropWhile_suffix _).length_le)

/-- a token consumes at least one character, unless it is the end. -/
theorem getToken_p {s : List Char} : Post (getToken M dec s) fun x => x.1 = .fin ∨ x.2.length < s.length := by
  have hl := (List.dropWhile_suffix isSpace (l := s)).length_le
  unfold getToken
  split
  · exact .ok (.inl rfl)
  · rename_i ch t hs
    rw [hs, List.length_cons] at hl
    have small : ∀ {x : Tok × List Char}, x.2.length ≤ t.length → x.1 = .fin ∨ x.2.length < s.length := fun h => .inr (by omega)
    refine .ite (.bind (P := fun x => x.2.length ≤ t.length) ?_ fun x hx => .bind Rational.inverse_p fun _ _ => .ok (small ?_)) ?_
    · split
      · exact .throw
      · exact .ite (.bind Rational.ofInt_p fun _ _ => .ok (le_refl _)) (.ite ((parseNumber_p hd).mono fun x hx => by simp; omega) .throw)
    · simp; omega
    · refine .ite (.bind (parseNumber_p hd) fun x hx => .ok (small hx)) (.ite ?_ (.ite (.ok (small (le_refl _))) (.ite (.ok (small (le_refl _)))
        (.ite (.ok (small ?_)) (.ite (.ok (small (le_refl _))) .throw)))))
      · split
        · exact .ite (.ok (small (by simp))) (.ok (small (le_refl _)))
        · exact .ok (small (le_refl _))
      · have := (List.dropWhile_suffix (· ≠ '}') (l := t)).length_le
        show ((t.dropWhile fun x => decide (x ≠ '}')).tail).length ≤ t.length
        rw [List.length_tail]
        omega


omit hd in
/-- the end of the input is the last token of the list. -/
theorem pushTok_p {toks : List Tok} {t : Tok} : Post (pushTok toks t) fun l => t = .fin → l.head? = some .fin := by
  unfold pushTok
  refine .ite (.ok fun h => by subst h; rfl) ?_
  split
  · split
    · exact .ok fun h => by cases h
    · exact .throw
  · exact .ite (.ok fun h => by subst h; rfl) (.ok fun h => by subst h; rfl)

theorem tokLoop_p : ∀ {f : Nat} {toks : List Tok} {s : List Char}, (toks.head? = some .fin ∧ 1 ≤ f) ∨ s.length + 2 ≤ f →
    Post (tokLoop M dec f toks s) fun _ => True := by
  intro f
  induction f with
  | zero => intro toks s h; omega
  | succ f ih =>
    intro toks s h
    unfold tokLoop
    split
    · exact .ok trivial
    · rename_i hne
      have h : s.length + 2 ≤ f + 1 := h.resolve_left fun h => hne h.1
      refine .bind (getToken_p hd) fun x hx => .bind pushTok_p fun l hl => ih ?_
      rcases hx with hx | hx
      · exact .inl ⟨hl hx, by omega⟩
      · exact .inr (by omega)

omit hd in
theorem handle_p {s : St} : Post (handle s) fun _ => True := by
  unfold handle
  split
  · exact .ok trivial
  · exact .throw

omit hd in
theorem greatOrEqual_p {a b : Char} : Post (greatOrEqual a b) fun _ => True := by
  have h : ∀ c, Post (priority c) fun _ => True := fun c => .ite (.ok trivial) (.ite (.ok trivial) (.ite (.ok trivial) (.ite (.ok trivial) .exn)))
  exact .bind (h a) fun _ _ => .bind (h b) fun _ _ => .ok trivial

omit hd in
theorem popWhile_p {c : Char} : ∀ {os : List Char} {ns : List Expr}, Post (popWhile c ns os) fun _ => True := by
  intro os
  induction os with
  | nil => intro ns; exact .ok trivial
  | cons o os ih =>
    intro ns
    unfold popWhile
    exact .bind greatOrEqual_p fun _ _ => .ite (.bind handle_p fun _ _ => ih) (.ok trivial)

omit hd in
theorem closeParen_p : ∀ {os : List Char} {ns : List Expr}, Post (closeParen ns os) fun _ => True := by
  intro os
  induction os with
  | nil => intro ns; unfold closeParen; exact .throw
  | cons o os ih =>
    intro ns
    unfold closeParen
    exact .ite (.bind handle_p fun _ _ => ih) (.ok trivial)

omit hd in
theorem step_p {s : St} {t : Tok} : Post (step s t) fun _ => True := by
  unfold step
  split
  · exact .bind popWhile_p fun _ _ => .ok trivial
  · exact .ok trivial
  · exact closeParen_p
  · exact .ok trivial
  · exact .ok trivial
  · exact .throw

omit hd in
theorem run_p : ∀ {ts : List Tok} {s : St}, Post (run ts s) fun _ => True := by
  intro ts
  induction ts with
  | nil => intro s; exact .ok trivial
  | cons t ts ih => intro s; unfold run; exact .bind step_p fun _ _ => ih

omit hd in
theorem finish_p : ∀ {os : List Char} {ns : List Expr}, Post (finish ns os) fun _ => True := by
  intro os
  induction os with
  | nil =>
    intro ns
    unfold finish
    split
    · exact .ok trivial
    · exact .throw
    · contradiction
  | cons o os ih =>
    intro ns
    unfold finish
    split
    · contradiction
    · contradiction
    · rename_i h
      cases h
      exact .bind handle_p fun _ _ => ih

theorem parse_p {s : List Char} : Post (parse M dec s) fun _ => True :=
  .bind (P := fun _ => True) (.bind (tokLoop_p hd (.inr (le_refl _))) fun _ _ => .ok trivial) fun _ _ => .bind run_p fun _ _ => finish_p

end
end Symxx.Parser

namespace Symxx.Sym.Node
open Symxx.Num Symxx.Res

theorem ofText_p {env : FEnv} (he : env.Ends) {dec : List Char → Res Rational} (hd : ∀ s, dec s ≠ .fuel) {s : List Char} :
    Post (ofText env dec s) (Ix env.M) := .bind (Parser.parse_p hd) fun _ _ => ofExpr_p he

end Symxx.Sym.Node

import Verif.Num.RealOps
import Verif.Num.Trial
/-!
# Checked environments, and transfer of results from a checked to the actual environment

`env.checked B` is the environment `env` in which a floating-point power is refused unless its exact
value is within the range where `env` is known to compute it exactly, and `factorize` is refused
outside `1..B` and where it does not return the prime factors. A computation that succeeds in the checked environment gives the same result in `env`
(`Res.Le`), so "succeeds in the checked environment" reads: no rounding, no overflow, no Error.
-/
namespace Symxx

/-- whatever `x` returns, `y` returns. -/
def Res.Le {α} (x y : Res α) : Prop := ∀ a, x = .ok a → y = .ok a

namespace Res.Le
variable {α β : Type _}

theorem refl (x : Res α) : Res.Le x x := fun _ h => h

theorem bind {x y : Res α} {f g : α → Res β} (h : Res.Le x y) (hf : ∀ a, Res.Le (f a) (g a)) :
    Res.Le (x >>= f) (y >>= g) := by
  intro b hb
  obtain ⟨a, e, hb⟩ := Res.bind_eq_ok.1 hb
  rw [h a e]
  exact hf a b hb

theorem ite {c : Prop} [Decidable c] {x y x' y' : Res α} (h : Res.Le x x') (h' : Res.Le y y') :
    Res.Le (if c then x else y) (if c then x' else y') := by
  split
  · exact h
  · exact h'

theorem guard {c : Prop} [Decidable c] {x y : Res α} (h : ∀ a, y ≠ .ok a) :
    Res.Le (if c then x else y) x := by
  intro a ha
  split at ha
  · exact ha
  · exact absurd ha (h a)

end Res.Le

namespace Num

/-- the environment with inexact steps refused: a rounded power, or a factorisation that is not the one into primes. -/
def Env.checked (env : Env) (B : Nat) : Env where
  M := env.M
  junk := env.junk
  strict := true
  fac n := if 0 < n ∧ n ≤ B then do
      let l ← env.fac n
      if l = Real.primesOf n.toNat then .ok l else .exn "not the prime factors"
    else .exn "unchecked"
  fl :=
    { powT := fun n p q =>
        if q ≠ 0 ∧ q ∣ p ∧ 0 ≤ p / q ∧ |p| ≤ 2 ^ 53 ∧ |q| ≤ 2 ^ 53 ∧ |n ^ (p / q).toNat| ≤ 2 ^ 53 then
          env.fl.powT n p q else .exn "rounding"
      divPow := env.fl.divPow
      mulPow := env.fl.mulPow
      ofPow := fun n k => if 0 < n ∧ n ^ k ≤ (B : Int) then env.fl.ofPow n k else .exn "rounding" }

/-- every step of `e` that returns, returns the same in `e'`. -/
structure Env.Le (e e' : Env) : Prop where
  M : e.M = e'.M
  junk : e.junk = e'.junk
  noWrap : ∀ (b : Prop) [Decidable b], Res.Le (e.noWrap b) (e'.noWrap b)
  powT : ∀ n p q, Res.Le (e.fl.powT n p q) (e'.fl.powT n p q)
  divPow : ∀ n p q, Res.Le (e.fl.divPow n p q) (e'.fl.divPow n p q)
  mulPow : ∀ n p q, Res.Le (e.fl.mulPow n p q) (e'.fl.mulPow n p q)
  ofPow : ∀ n p, Res.Le (e.fl.ofPow n p) (e'.fl.ofPow n p)
  fac : ∀ n, Res.Le (e.fac n) (e'.fac n)

theorem Env.checked_le (env : Env) (B : Nat) : Env.Le (env.checked B) env where
  M := rfl
  junk := rfl
  noWrap b _ := by
    cases hs : env.strict
    · unfold Env.noWrap
      rw [if_neg (c := env.strict = true ∧ ¬ b) (by simp [hs])]
      split
      · intro a h; cases h
      · exact .refl _
    · have : (env.checked B).noWrap b = env.noWrap b := by unfold Env.noWrap; rw [hs]; rfl
      rw [this]
      exact .refl _
  powT _ _ _ := Res.Le.guard (by simp)
  divPow _ _ _ := .refl _
  mulPow _ _ _ := .refl _
  ofPow _ _ := Res.Le.guard (by simp)
  fac n := by
    intro l h
    simp only [Env.checked] at h
    split at h
    · obtain ⟨l', h1, h⟩ := Res.bind_eq_ok.1 h
      split at h
      · injection h with h; rw [← h]; exact h1
      · cases h
    · cases h

/-- the environment with a factoriser that is always right (used in the proofs only). -/
def Env.primes (env : Env) : Env :=
  { env with fac := fun n => if 0 < n then .ok (Real.primesOf n.toNat) else .ub "empty range" }

theorem Env.Base.primes {env : Env} {B : Nat} (h : env.Base B) : env.primes.Good B where
  hM := h.hM
  exact := h.exact
  hB := h.hB
  hfac n hn _ := by
    show (if (0 : Int) < n then _ else _) = _
    rw [if_pos (by exact_mod_cast hn), Int.toNat_natCast, Real.primesOf_eq n hn]

/-- a run in the checked environment is a run with a right factoriser. -/
theorem Env.checked_le_primes (env : Env) (B : Nat) : Env.Le (env.checked B) env.primes where
  M := rfl
  junk := rfl
  noWrap b _ := (env.checked_le B).noWrap b
  powT := (env.checked_le B).powT
  divPow := (env.checked_le B).divPow
  mulPow := (env.checked_le B).mulPow
  ofPow := (env.checked_le B).ofPow
  fac n := by
    intro l h
    simp only [Env.checked] at h
    split at h
    · rename_i hn
      obtain ⟨l', h1, h⟩ := Res.bind_eq_ok.1 h
      split at h
      · rename_i hl
        injection h with h
        subst h
        show (if 0 < n then _ else _) = _
        rw [if_pos hn.1, hl]
      · cases h
    · cases h

/-- decomposes a goal `Res.Le x y` along the program text. -/
macro "res_mono" : tactic => `(tactic|
  repeat' (first
    | with_reducible exact Res.Le.refl _
    | assumption
    | apply_assumption
    | refine Res.Le.ite ?_ ?_
    | refine Res.Le.bind ?_ ?_
    | rintro ⟨_, _⟩
    | intro _))

variable {e e' : Env}

theorem Rational.pow_mono {M : Int} {f f' : Fl} (h : ∀ n p q, Res.Le (f.powT n p q) (f'.powT n p q)) (a p : Rational) :
    Res.Le (pow M f a p) (pow M f' a p) := by
  unfold pow
  res_mono

theorem decompose_mono (h : Env.Le e e') (n : Int) : Res.Le (decompose e n) (decompose e' n) := by
  have := h.fac
  unfold decompose
  res_mono

namespace Real

theorem stripVals_mono (h : Env.Le e e') (k : Nat) (vs : List Nat) : ∀ (rad : Int) (coe : Rational),
    Res.Le (stripVals e k vs rad coe) (stripVals e' k vs rad coe) := by
  have := h.divPow
  induction vs with
  | nil => intro _ _; exact .refl _
  | cons v vs ih =>
    intro rad coe
    unfold stripVals
    rw [h.M]
    res_mono

theorem stripWhile_mono (h : Env.Le e e') (k : Nat) (vs : List Nat) (f : Nat) : ∀ (x : Nat) (rad : Int) (coe : Rational),
    Res.Le (stripWhile e k vs f x rad coe) (stripWhile e' k vs f x rad coe) := by
  have := stripVals_mono h
  induction f with
  | zero => intro _ _ _; exact .refl _
  | succ f ih =>
    intro x rad coe
    unfold stripWhile
    res_mono

theorem stripAll_mono (h : Env.Le e e') (k : Nat) (m : FMap) : ∀ (rad : Int) (coe : Rational),
    Res.Le (stripAll e k m rad coe) (stripAll e' k m rad coe) := by
  have := stripWhile_mono h
  induction m with
  | nil => intro _ _; exact .refl _
  | cons v m ih =>
    intro rad coe
    obtain ⟨x, vs⟩ := v
    unfold stripAll
    res_mono

theorem rebuildVals_mono (h : Env.Le e e') (k : Nat) (vs : List Nat) : ∀ rad : Int,
    Res.Le (rebuildVals e k vs rad) (rebuildVals e' k vs rad) := by
  have := h.mulPow
  induction vs with
  | nil => intro _; exact .refl _
  | cons v vs ih =>
    intro rad
    unfold rebuildVals
    res_mono

theorem rebuild_mono (h : Env.Le e e') (g : Nat) (m : FMap) : ∀ rad : Int,
    Res.Le (rebuild e g m rad) (rebuild e' g m rad) := by
  have := rebuildVals_mono h
  induction m with
  | nil => intro _; exact .refl _
  | cons v m ih =>
    intro rad
    obtain ⟨x, vs⟩ := v
    unfold rebuild
    res_mono

theorem gExp_mono (h : Env.Le e e') (k : Nat) (m : FMap) : gExp e k m = gExp e' k m := by
  unfold gExp
  rw [h.junk]

theorem normalize_mono (h : Env.Le e e') (r : Real) : Res.Le (normalize e r) (normalize e' r) := by
  have h1 := decompose_mono h
  have h2 := stripAll_mono h
  have h3 := rebuild_mono h
  have h4 := h.ofPow
  unfold normalize
  simp only [gExp_mono h, h.M]
  res_mono

theorem mk3_mono (h : Env.Le e e') (c r : Rational) (i : Nat) : Res.Le (mk3 e c r i) (mk3 e' c r i) :=
  normalize_mono h _

theorem ofRational_mono (h : Env.Le e e') (c : Rational) : Res.Le (ofRational e c) (ofRational e' c) := by
  have := mk3_mono h
  unfold ofRational
  rw [h.M]
  res_mono

theorem ofInt_mono (h : Env.Le e e') (c : Int) : Res.Le (ofInt e c) (ofInt e' c) := by
  have := ofRational_mono h
  unfold ofInt
  rw [h.M]
  res_mono

theorem isEquivalentWith_mono (h : Env.Le e e') (a b : Real) :
    Res.Le (isEquivalentWith e a b) (isEquivalentWith e' a b) := by
  unfold isEquivalentWith
  rw [h.M]
  res_mono

theorem add_mono (h : Env.Le e e') (a b : Real) : Res.Le (add e a b) (add e' a b) := by
  have h1 := isEquivalentWith_mono h
  have h2 := normalize_mono h
  unfold add
  rw [h.M]
  res_mono

theorem negate_mono (h : Env.Le e e') (a : Real) : Res.Le (negate e a) (negate e' a) := by
  have := mk3_mono h
  unfold negate
  rw [h.M]
  res_mono

theorem sub_mono (h : Env.Le e e') (a b : Real) : Res.Le (sub e a b) (sub e' a b) := by
  have h1 := negate_mono h
  have h2 := add_mono h
  have h3 := normalize_mono h
  unfold sub
  res_mono

theorem lcmU_mono (h : Env.Le e e') (a b : Nat) : Res.Le (lcmU e a b) (lcmU e' a b) := by
  unfold lcmU
  rw [h.M]
  res_mono

theorem ratOfIndex_mono (h : Env.Le e e') (i : Nat) : Res.Le (ratOfIndex e i) (ratOfIndex e' i) := by
  unfold ratOfIndex
  rw [h.M]
  res_mono

theorem mul_mono (h : Env.Le e e') (a b : Real) : Res.Le (mul e a b) (mul e' a b) := by
  have h1 := lcmU_mono h
  have h2 := ratOfIndex_mono h
  have h3 := normalize_mono h
  have h4 := @Rational.pow_mono e'.M _ _ h.powT
  unfold mul
  rw [h.M]
  res_mono

theorem inverse_mono (h : Env.Le e e') (a : Real) : Res.Le (inverse e a) (inverse e' a) := by
  unfold inverse
  rw [h.M]
  res_mono

theorem div_mono (h : Env.Le e e') (a b : Real) : Res.Le (div e a b) (div e' a b) := by
  have h1 := inverse_mono h
  have h2 := mul_mono h
  unfold div
  res_mono

theorem powPos_mono (h : Env.Le e e') (a : Real) (p : Rational) : Res.Le (powPos e a p) (powPos e' a p) := by
  have h1 := mul_mono h
  have h2 := mk3_mono h
  have h3 := normalize_mono h
  have h4 := @Rational.pow_mono e'.M _ _ h.powT
  have h5 := h.noWrap
  unfold powPos
  rw [h.M]
  res_mono

theorem powN_mono (h : Env.Le e e') (f : Nat) : ∀ (a : Real) (p : Rational), Res.Le (powN e f a p) (powN e' f a p) := by
  have h1 := inverse_mono h
  have h2 := ofInt_mono h
  have h3 := powPos_mono h
  induction f with
  | zero => intro a p; exact .refl _
  | succ f ih =>
    intro a p
    unfold powN
    rw [h.M]
    res_mono

theorem pow_mono (h : Env.Le e e') (a : Real) (p : Rational) : Res.Le (pow e a p) (pow e' a p) := powN_mono h 3 a p

theorem eq_mono (h : Env.Le e e') (a b : Real) : Res.Le (eq e a b) (eq e' a b) := by
  unfold eq
  rw [h.M]
  res_mono

theorem cmpSide_mono (h : Env.Le e e') (c : Rational) (x : Nat) (rad : Rational) (k : Nat) :
    Res.Le (cmpSide e c x rad k) (cmpSide e' c x rad k) := by
  have h2 := ratOfIndex_mono h
  have h4 := @Rational.pow_mono e'.M _ _ h.powT
  unfold cmpSide
  rw [h.M]
  res_mono

theorem leZero_mono (h : Env.Le e e') (a : Rational) : Res.Le (leZero e a) (leZero e' a) := by
  unfold leZero
  rw [h.M]
  res_mono

theorem geZero_mono (h : Env.Le e e') (a : Rational) : Res.Le (geZero e a) (geZero e' a) := by
  unfold geZero
  rw [h.M]
  res_mono

theorem mulU_mono (h : Env.Le e e') (a b : Nat) : mulU e a b = mulU e' a b := by
  unfold mulU
  rw [h.M]

theorem lt_mono (h : Env.Le e e') (a b : Real) : Res.Le (lt e a b) (lt e' a b) := by
  have h1 := eq_mono h
  have h2 := cmpSide_mono h
  have h3 := leZero_mono h
  have h4 := geZero_mono h
  unfold lt
  simp only [h.M, mulU_mono h]
  refine Res.Le.bind (h1 _ _) fun _ => ?_
  refine Res.Le.ite (.refl _) ?_
  refine Res.Le.bind (h3 _) fun _ => ?_
  refine Res.Le.bind (Res.Le.ite (h4 _) (.refl _)) fun _ => ?_
  refine Res.Le.ite (.refl _) ?_
  refine Res.Le.bind (h4 _) fun _ => ?_
  refine Res.Le.bind (Res.Le.ite (h3 _) (.refl _)) fun _ => ?_
  refine Res.Le.ite (.refl _) ?_
  refine Res.Le.bind (Res.Le.ite (h3 _) (.refl _)) fun _ => ?_
  refine Res.Le.ite ?_ ?_
  · refine Res.Le.bind (.refl _) fun _ => ?_
    refine Res.Le.bind (h2 _ _ _ _) fun _ => ?_
    refine Res.Le.bind (.refl _) fun _ => ?_
    exact Res.Le.bind (h2 _ _ _ _) fun _ => .refl _
  · refine Res.Le.bind (h2 _ _ _ _) fun _ => ?_
    exact Res.Le.bind (h2 _ _ _ _) fun _ => .refl _

theorem gt_mono (h : Env.Le e e') (a b : Real) : Res.Le (gt e a b) (gt e' a b) := by
  have h1 := eq_mono h
  have h2 := lt_mono h
  unfold gt
  res_mono

end Real
end Num
end Symxx

import Verif.Expr.NumericSpec
import Verif.Expr.Names
/-!
# The evaluation in `long double`: when it has a value, and when it is exact
-/
namespace Symxx.Sym
open Symxx.Num

variable {F : Flt} {v : List (List Char × F.LD)}

/-! ### when there is a value -/

theorem findLD_isSome {x : List Char} : (findLD F v x).isSome = true ↔ x ∈ v.map (·.1) := by
  unfold findLD
  rw [Option.isSome_map, List.find?_isSome, List.mem_map]
  constructor
  · rintro ⟨p, hp, h⟩
    exact ⟨p, hp, by simpa using h⟩
  · rintro ⟨p, hp, h⟩
    exact ⟨p, hp, by simpa using h⟩

theorem Syms.tryEvalLD_isSome {s : Syms} {r : F.LD} :
    (Syms.tryEvalLD F v s r).isSome = true ↔ ∀ p ∈ s, p.1 ∈ v.map (·.1) := by
  induction s generalizing r with
  | nil => simp [Syms.tryEvalLD]
  | cons p t ih =>
    unfold Syms.tryEvalLD
    rw [List.forall_mem_cons, ← findLD_isSome (F := F)]
    cases findLD F v p.1 with
    | none => simp
    | some a => simp only [ih, Option.isSome_some, true_and]

theorem Poly.tryEvalLDLoop_isSome {p : Poly} {r : F.LD} :
    (Poly.tryEvalLDLoop F v p r).isSome = true ↔ ∀ x ∈ Poly.names p, x ∈ v.map (·.1) := by
  induction p generalizing r with
  | nil => simp [Poly.tryEvalLDLoop, Poly.names]
  | cons t ts ih =>
    have ht : (t.tryEvalLD F v).isSome = true ↔ ∀ x ∈ t.names, x ∈ v.map (·.1) := by
      unfold Term.tryEvalLD Term.names
      rw [Syms.tryEvalLD_isSome]
      simp only [List.forall_mem_map]
    have e : Poly.names (t :: ts) = t.names ++ Poly.names ts := by simp [Poly.names]
    rw [e, List.forall_mem_append, ← ht]
    unfold Poly.tryEvalLDLoop
    cases t.tryEvalLD F v with
    | none => simp
    | some a => simp only [ih, Option.isSome_some, true_and]

theorem Frac.tryEvalLD_isSome {f : Frac} : (f.tryEvalLD F v).isSome = true ↔ ∀ x ∈ f.names, x ∈ v.map (·.1) := by
  have h : ∀ p : Poly, (p.tryEvalLD F v).isSome = true ↔ ∀ x ∈ Poly.names p, x ∈ v.map (·.1) := fun p =>
    Poly.tryEvalLDLoop_isSome
  unfold Frac.names Frac.tryEvalLD
  rw [List.forall_mem_append, ← h, ← h]
  cases f.num.tryEvalLD F v <;> cases f.den.tryEvalLD F v <;> simp

theorem numOp_eq {c : Char} (hc : c = '+' ∨ c = '-' ∨ c = '*' ∨ c = '/' ∨ c = '^') (a b : F.LD) :
    Node.numOp F c a b = .ok (some (fltOp F c a b)) := by
  rcases hc with rfl | rfl | rfl | rfl | rfl <;> rfl

/-- the tree has an outcome, and it is a value exactly if all symbols are bound. -/
theorem Node.tryEvalLD_isSome {n : Node} (hn : n.Ops) :
    ∃ o, Node.tryEvalLD F v n = .ok o ∧ (o.isSome = true ↔ ∀ x ∈ n.names, x ∈ v.map (·.1)) := by
  induction n with
  | frac f => exact ⟨_, rfl, Frac.tryEvalLD_isSome⟩
  | op c l r il ir =>
    obtain ⟨a, a1, a2⟩ := il hn.2.1
    obtain ⟨b, b1, b2⟩ := ir hn.2.2
    have e : (Node.op c l r).names = l.names ++ r.names := rfl
    rw [e, List.forall_mem_append, ← a2, ← b2]
    unfold Node.tryEvalLD
    rw [a1, Res.bind_ok, b1, Res.bind_ok, Res.bind_ok, Res.bind_ok]
    cases a with
    | none => exact ⟨none, rfl, by simp⟩
    | some a =>
      cases b with
      | none => exact ⟨none, rfl, by simp⟩
      | some b => exact ⟨_, numOp_eq hn.1 a b, by simp⟩

/-- the two evaluations of the operands agree. -/
theorem Node.tryEvalLD_op {c : Char} (hc : c = '+' ∨ c = '-' ∨ c = '*' ∨ c = '/' ∨ c = '^') {l r : Node} {a b : F.LD}
    (h1 : Node.tryEvalLD F v l = .ok (some a)) (h2 : Node.tryEvalLD F v r = .ok (some b)) :
    Node.tryEvalLD F v (.op c l r) = .ok (some (fltOp F c a b)) := by
  unfold Node.tryEvalLD
  rw [h1, Res.bind_ok, h2, Res.bind_ok, Res.bind_ok, Res.bind_ok]
  exact numOp_eq hc a b

/-! ### exact evaluations -/

theorem opSem_ops {c : Char} {x y z : ℝ} (h : opSem c x y = some z) : c = '+' ∨ c = '-' ∨ c = '*' ∨ c = '/' ∨ c = '^' := by
  unfold opSem at h
  by_cases h1 : c = '+'
  · exact Or.inl h1
  by_cases h2 : c = '-'
  · exact Or.inr (Or.inl h2)
  by_cases h3 : c = '*'
  · exact Or.inr (Or.inr (Or.inl h3))
  by_cases h4 : c = '/'
  · exact Or.inr (Or.inr (Or.inr (Or.inl h4)))
  by_cases h5 : c = '^'
  · exact Or.inr (Or.inr (Or.inr (Or.inr h5)))
  simp [h1, h2, h3, h4, h5] at h

theorem opSem_pow_nat (m : Int) (n : Nat) : opSem '^' (m : ℝ) (((n : Int) : ℝ)) = some ((m ^ n : Int) : ℝ) := by
  unfold opSem
  have e : ((n : Int) : ℝ) = (n : ℝ) := by simp
  rw [if_neg (by decide), if_neg (by decide), if_neg (by decide), if_neg (by decide), if_pos rfl, if_pos]
  · rw [e, Real.rpow_natCast]; simp
  · rcases lt_trichotomy (m : ℝ) 0 with h | h | h
    · exact Or.inr (Or.inr ⟨h, n, rfl⟩)
    · exact Or.inr (Or.inl ⟨h, by rw [e]; positivity⟩)
    · exact Or.inl h

variable {S : FltSem F} {N : Int} {κ : List Char → Int}

namespace FltSem.Exact
variable (h : S.Exact N)
include h

theorem mul {a b : F.LD} {m n : Int} (ha : S.ld a = some (m : ℝ)) (hb : S.ld b = some (n : ℝ)) (hm : |m| ≤ N) (hn : |n| ≤ N)
    (hk : |m * n| ≤ N) : S.ld (F.mul a b) = some ((m * n : Int) : ℝ) :=
  h.op '*' a b m n (m * n) ha hb hm hn (by unfold opSem; simp) hk

theorem add {a b : F.LD} {m n : Int} (ha : S.ld a = some (m : ℝ)) (hb : S.ld b = some (n : ℝ)) (hm : |m| ≤ N) (hn : |n| ≤ N)
    (hk : |m + n| ≤ N) : S.ld (F.add a b) = some ((m + n : Int) : ℝ) :=
  h.op '+' a b m n (m + n) ha hb hm hn (by unfold opSem; simp) hk

theorem div {a b : F.LD} {m n k : Int} (ha : S.ld a = some (m : ℝ)) (hb : S.ld b = some (n : ℝ)) (hm : |m| ≤ N) (hn : |n| ≤ N)
    (h0 : n ≠ 0) (hk : m = k * n) (hN : |k| ≤ N) : S.ld (F.div a b) = some (k : ℝ) := by
  have h0' : (n : ℝ) ≠ 0 := by exact_mod_cast h0
  refine h.op '/' a b m n k ha hb hm hn ?_ hN
  unfold opSem
  rw [if_neg (by decide), if_neg (by decide), if_neg (by decide), if_pos rfl, if_neg h0', hk]
  push_cast
  rw [mul_div_cancel_right₀ _ h0']

theorem abs1 : |(1 : Int)| ≤ N := by simpa using h.one
theorem abs0 : |(0 : Int)| ≤ N := by simpa using le_trans zero_le_one h.one

/-- the factor 1 of a rational coefficient. -/
theorem root_int (n : Int) : S.d ((Num.Real.int n).rootD F) = some ((1 : Int) : ℝ) := by
  have o := h.dOfInt 1 h.abs1
  have e1 : S.d (F.dDiv (F.dOfInt 1) (F.dOfInt 1)) = some ((1 : Int) : ℝ) :=
    h.opD '/' _ _ 1 1 1 (Or.inl rfl) o o h.abs1 h.abs1 (by unfold opSem; simp) h.abs1
  refine h.opD '^' _ _ 1 1 1 (Or.inr rfl) e1 e1 h.abs1 h.abs1 ?_ h.abs1
  have := opSem_pow_nat 1 1
  simpa using this

/-- an integer coefficient. -/
theorem toLD_int {n : Int} (hn : |n| ≤ N) : S.ld ((Num.Real.int n).toLD F) = some (n : ℝ) := by
  have h1 : S.ld (Rational.toLD F ⟨n, 1⟩) = some (n : ℝ) :=
    h.div (h.ofInt n hn) (h.ofInt 1 h.abs1) hn h.abs1 one_ne_zero (by ring) hn
  have h2 : S.ld (F.widen ((Num.Real.int n).rootD F)) = some ((1 : Int) : ℝ) := by rw [h.widen, h.root_int]
  have := h.mul h1 h2 hn h.abs1 (by simpa using hn)
  simpa [Num.Real.toLD, Num.Real.int] using this

/-- a natural exponent. -/
theorem toLD_nat {q : Rational} (hd : q.den = 1) (hn : |q.num| ≤ N) : S.ld (q.toLD F) = some (q.num : ℝ) := by
  unfold Rational.toLD
  rw [hd]
  exact h.div (h.ofInt _ hn) (h.ofInt 1 h.abs1) hn h.abs1 one_ne_zero (by ring) hn

end FltSem.Exact

theorem syms_prod_ge {κ : List Char → Int} (s : Syms) : 1 ≤ (s.map fun p => max 1 |κ p.1| ^ p.2.num.toNat).prod := by
  induction s with
  | nil => simp
  | cons p s ih =>
    rw [List.map_cons, List.prod_cons]
    have : (1 : Int) ≤ max 1 |κ p.1| ^ p.2.num.toNat := one_le_pow₀ (le_max_left _ _)
    nlinarith

theorem Syms.tryEvalLD_int (h : S.Exact N) {s : Syms} (hs : ∀ q ∈ s, NatExp q ∧ q.2.num ≤ N)
    (hv : ConstsAt S v κ N (s.map (·.1))) {r : F.LD} {c : Int} (hr : S.ld r = some (c : ℝ))
    (h0 : (s.map fun p => max 1 |κ p.1| ^ p.2.num.toNat).prod ≤ N)
    (hN : |c| * (s.map fun p => max 1 |κ p.1| ^ p.2.num.toNat).prod ≤ N) :
    ∃ a, Syms.tryEvalLD F v s r = some a ∧ S.ld a = some ((c * s.at κ : Int) : ℝ) := by
  induction s generalizing r c with
  | nil => exact ⟨r, rfl, by simpa [Syms.at] using hr⟩
  | cons p s ih =>
    obtain ⟨⟨h1, h2⟩, h3⟩ := hs p List.mem_cons_self
    obtain ⟨hκ, a, a1, a2⟩ := hv p.1 (by simp)
    have ge := syms_prod_ge (κ := κ) s
    rw [List.map_cons, List.prod_cons] at hN h0
    obtain ⟨k, hk⟩ := Int.eq_ofNat_of_zero_le h1
    have hkn : p.2.num.toNat = k := by rw [hk]; rfl
    rw [hkn] at hN h0
    set P := (s.map fun p => max 1 |κ p.1| ^ p.2.num.toNat).prod with hP
    set X : Int := max 1 |κ p.1| with hX
    have hX1 : 1 ≤ X := le_max_left _ _
    have hXk : 1 ≤ X ^ k := one_le_pow₀ hX1
    have hxk : |κ p.1 ^ k| ≤ X ^ k := by
      rw [abs_pow]
      exact pow_le_pow_left₀ (abs_nonneg _) (le_max_right _ _) _
    have b1 : X ^ k ≤ N := le_trans (le_mul_of_one_le_right (by positivity) ge) h0
    have b4 : P ≤ N := le_trans (le_mul_of_one_le_left (by positivity) hXk) h0
    have b2 : |c| ≤ N := le_trans (le_mul_of_one_le_right (abs_nonneg c) (by nlinarith)) hN
    have b3 : |c| * X ^ k ≤ N := by
      rw [← mul_assoc] at hN
      exact le_trans (le_mul_of_one_le_right (by positivity) ge) hN
    have e1 : |c * κ p.1 ^ k| ≤ |c| * X ^ k := by
      rw [abs_mul]; exact mul_le_mul_of_nonneg_left hxk (abs_nonneg _)
    have hex : S.ld (p.2.toLD F) = some (p.2.num : ℝ) := h.toLD_nat h2 (by rw [abs_of_nonneg h1]; exact h3)
    have hpow : S.ld (F.pow a (p.2.toLD F)) = some ((κ p.1 ^ k : Int) : ℝ) := by
      refine h.op '^' _ _ (κ p.1) p.2.num _ a2 hex hκ (by rw [abs_of_nonneg h1]; exact h3) ?_ (le_trans hxk b1)
      rw [hk]; exact opSem_pow_nat _ _
    have hmul := h.mul hr hpow b2 (le_trans hxk b1) (le_trans e1 b3)
    unfold Syms.tryEvalLD
    rw [a1]
    simp only
    obtain ⟨z, z1, z2⟩ := ih (fun q hq => hs q (List.mem_cons_of_mem _ hq)) (fun x hx => hv x (by simp at hx ⊢; tauto)) hmul b4 (by
      refine le_trans (mul_le_mul_of_nonneg_right e1 (by positivity)) ?_
      calc |c| * X ^ k * P = |c| * (X ^ k * P) := by ring
          _ ≤ N := hN)
    refine ⟨z, z1, ?_⟩
    rw [z2]
    congr 2
    simp only [Syms.at, List.map_cons, List.prod_cons, hkn]
    ring

theorem Syms.at_le (κ : List Char → Int) (s : Syms) : |s.at κ| ≤ (s.map fun p => max 1 |κ p.1| ^ p.2.num.toNat).prod := by
  induction s with
  | nil => simp [Syms.at]
  | cons p s ih =>
    have : Syms.at κ (p :: s) = κ p.1 ^ p.2.num.toNat * Syms.at κ s := by simp [Syms.at]
    rw [this, abs_mul, abs_pow, List.map_cons, List.prod_cons]
    exact mul_le_mul (pow_le_pow_left₀ (abs_nonneg _) (le_max_right _ _) _) ih (abs_nonneg _) (by positivity)

theorem Term.abs_le (κ : List Char → Int) (t : Term) : |t.coe.coe.num * t.syms.at κ| ≤ |t.coe.coe.num| * t.powSize κ := by
  rw [abs_mul]
  exact mul_le_mul_of_nonneg_left (Syms.at_le κ _) (abs_nonneg _)

theorem Term.tryEvalLD_int (h : S.Exact N) {t : Term} (hc : t.coe = Num.Real.int t.coe.coe.num)
    (hs : ∀ q ∈ t.syms, NatExp q ∧ q.2.num ≤ N) (hv : ConstsAt S v κ N t.names) (h0 : t.powSize κ ≤ N)
    (hN : |t.coe.coe.num| * t.powSize κ ≤ N) :
    ∃ a, t.tryEvalLD F v = some a ∧ S.ld a = some ((t.coe.coe.num * t.syms.at κ : Int) : ℝ) := by
  have h1 : 1 ≤ t.powSize κ := syms_prod_ge (κ := κ) t.syms
  have hn : |t.coe.coe.num| ≤ N := le_trans (le_mul_of_one_le_right (abs_nonneg _) h1) hN
  unfold Term.tryEvalLD
  refine Syms.tryEvalLD_int h hs hv ?_ h0 hN
  rw [hc]
  exact h.toLD_int hn

theorem Poly.abs_le (κ : List Char → Int) (p : Poly) :
    |p.at κ| ≤ (p.map fun t => |t.coe.coe.num| * t.powSize κ).sum := by
  induction p with
  | nil => simp [Poly.at]
  | cons t p ih =>
    have e2 : Poly.at κ (t :: p) = t.coe.coe.num * t.syms.at κ + Poly.at κ p := by simp [Poly.at]
    rw [List.map_cons, List.sum_cons, e2]
    exact le_trans (abs_add_le _ _) (add_le_add (Term.abs_le κ t) ih)

theorem Poly.tryEvalLDLoop_int (h : S.Exact N) {p : Poly} (hp : p.Natural N) (hv : ConstsAt S v κ N p.names) {r : F.LD} {c : Int}
    (hr : S.ld r = some (c : ℝ)) (h0 : ∀ t ∈ p, t.powSize κ ≤ N)
    (hN : |c| + (p.map fun t => |t.coe.coe.num| * t.powSize κ).sum ≤ N) :
    ∃ a, Poly.tryEvalLDLoop F v p r = some a ∧ S.ld a = some ((c + p.at κ : Int) : ℝ) := by
  induction p generalizing r c with
  | nil => exact ⟨r, rfl, by simpa [Poly.at] using hr⟩
  | cons t p ih =>
    have e2 : Poly.at κ (t :: p) = t.coe.coe.num * t.syms.at κ + Poly.at κ p := by simp [Poly.at]
    have e3 : Poly.names (t :: p) = t.names ++ Poly.names p := by simp [Poly.names]
    have h2 := Term.abs_le κ t
    have h2' := abs_nonneg (t.coe.coe.num * t.syms.at κ)
    have h3 := le_trans (abs_nonneg _) (Poly.abs_le κ p)
    have h4 := abs_nonneg c
    rw [List.map_cons, List.sum_cons] at hN
    obtain ⟨hc, hs⟩ := hp t List.mem_cons_self
    obtain ⟨a, a1, a2⟩ := Term.tryEvalLD_int h hc hs (fun x hx => hv x (by rw [e3]; exact List.mem_append_left _ hx))
      (h0 t List.mem_cons_self) (by omega)
    have hadd := abs_add_le c (t.coe.coe.num * t.syms.at κ)
    have hs := h.add hr a2 (by omega) (by omega) (by omega)
    obtain ⟨z, z1, z2⟩ := ih (fun u hu => hp u (List.mem_cons_of_mem _ hu))
      (fun x hx => hv x (by rw [e3]; exact List.mem_append_right _ hx)) hs
      (fun u hu => h0 u (List.mem_cons_of_mem _ hu)) (by omega)
    refine ⟨z, ?_, ?_⟩
    · unfold Poly.tryEvalLDLoop
      rw [a1]
      exact z1
    · rw [z2, e2]
      congr 2
      ring

theorem Poly.tryEvalLD_int (h : S.Exact N) {p : Poly} (hp : p.Natural N) (hv : ConstsAt S v κ N p.names)
    (hN : p.FitsAt κ N) : ∃ a, p.tryEvalLD F v = some a ∧ S.ld a = some ((p.at κ : Int) : ℝ) := by
  have := Poly.tryEvalLDLoop_int h hp hv (h.ofInt 0 h.abs0) hN.1 (by simpa using hN.2)
  simpa [Poly.tryEvalLD] using this

/-- an evaluation whose steps are integers within `N` is exact. -/
theorem Node.tryEvalLD_int (h : S.Exact N) {n : Node} {k : Int} (hn : n.IntSteps κ N k) (hv : ConstsAt S v κ N n.names) :
    |k| ≤ N ∧ ∃ a, Node.tryEvalLD F v n = .ok (some a) ∧ S.ld a = some (k : ℝ) := by
  induction n generalizing k with
  | frac f =>
    obtain ⟨h1, h2, h3, h4, h5, h6⟩ := hn
    obtain ⟨a, a1, a2⟩ := Poly.tryEvalLD_int h h1 (fun x hx => hv x (List.mem_append_left _ hx)) h3
    obtain ⟨b, b1, b2⟩ := Poly.tryEvalLD_int h h2 (fun x hx => hv x (List.mem_append_right _ hx)) h4
    have g1 := le_trans (Poly.abs_le κ f.num) h3.2
    have g2 := le_trans (Poly.abs_le κ f.den) h4.2
    have hk : |k| ≤ N := by
      have : |f.num.at κ| = |k| * |f.den.at κ| := by rw [h6, abs_mul]
      have : 1 ≤ |f.den.at κ| := Int.one_le_abs h5
      have := abs_nonneg k
      nlinarith
    refine ⟨hk, F.div a b, ?_, h.div a2 b2 g1 g2 h5 h6 hk⟩
    unfold Node.tryEvalLD Frac.tryEvalLD
    rw [a1, b1]
  | op c l r il ir =>
    obtain ⟨m, n, h1, h2, h3, h4⟩ := hn
    obtain ⟨hm, a, a1, a2⟩ := il h1 fun x hx => hv x (List.mem_append_left _ hx)
    obtain ⟨hn, b, b1, b2⟩ := ir h2 fun x hx => hv x (List.mem_append_right _ hx)
    exact ⟨h4, _, Node.tryEvalLD_op (opSem_ops h3) a1 b1, h.op c a b m n k a2 b2 hm hn h3 h4⟩

/-- what the steps compute is the value of the tree. -/
theorem Node.IntSteps.sem {n : Node} {k : Int} (hn : n.IntSteps κ N k) : n.sem (fun x => (κ x : ℝ)) = some (k : ℝ) := by
  have hv : ∀ {p : Poly}, p.Natural N → Poly.value (fun x => (κ x : ℝ)) p = ((p.at κ : Int) : ℝ) := by
    intro p hp
    induction p with
    | nil => simp [Poly.value, Poly.at]
    | cons t p ih =>
      have ih := ih fun u hu => hp u (List.mem_cons_of_mem _ hu)
      obtain ⟨h1, h2⟩ := hp t List.mem_cons_self
      have e1 := Syms.at_value κ fun q hq => (h2 q hq).1
      have e2 : t.coe.val = (t.coe.coe.num : ℝ) := by
        rw [h1]
        simp [Num.Real.val, Num.Real.int, Rational.val]
      have : Poly.value (fun x => (κ x : ℝ)) (t :: p) =
          t.coe.val * t.syms.value (fun x => (κ x : ℝ)) + Poly.value (fun x => (κ x : ℝ)) p := by
        simp [Poly.value, Term.value]
      rw [this, ih, e1, e2]
      simp [Poly.at]
  induction n generalizing k with
  | frac f =>
    obtain ⟨h1, h2, h3, h4, h5, h6⟩ := hn
    have h5' : ((f.den.at κ : Int) : ℝ) ≠ 0 := by exact_mod_cast h5
    refine Node.sem_frac.2 ⟨by rwa [hv h2], ?_⟩
    unfold Frac.value
    rw [hv h1, hv h2, h6]
    push_cast
    rw [mul_div_cancel_right₀ _ h5']
  | op c l r il ir =>
    obtain ⟨m, n, h1, h2, h3, h4⟩ := hn
    show ((Node.sem _ l).bind fun x => (Node.sem _ r).bind fun y => opSem c x y) = _
    rw [il h1, ir h2]
    exact h3

end Symxx.Sym

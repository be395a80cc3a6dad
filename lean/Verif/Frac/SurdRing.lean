import Verif.Expr.SumEval
/-!
# Products of sums of roots
-/
namespace Symxx.Sym
open Symxx.Num

namespace RT

/-- the sum of the absolute values of the terms. -/
noncomputable def size (m : List RT) : ℝ := (m.map fun t => |t.val|).sum

theorem size_cons (t : RT) (l : List RT) : size (t :: l) = |t.val| + size l := by simp [size]
theorem size_append (l m : List RT) : size (l ++ m) = size l + size m := by simp [size]
theorem size_nonneg (l : List RT) : 0 ≤ size l := by
  induction l with
  | nil => simp [size]
  | cons t l ih => rw [size_cons]; positivity
theorem size_mem {l : List RT} {t : RT} (h : t ∈ l) : |t.val| ≤ size l := by
  induction l with
  | nil => cases h
  | cons u l ih =>
    rw [size_cons]
    rcases List.mem_cons.1 h with rfl | h
    · have := size_nonneg l; linarith
    · have := ih h; have := abs_nonneg u.val; linarith

/-- the sum of the absolute values of the terms, where values below 1 count as 1. -/
noncomputable def bulk (m : List RT) : ℝ := (m.map fun t => max 1 |t.val|).sum

theorem bulk_cons (t : RT) (l : List RT) : bulk (t :: l) = max 1 |t.val| + bulk l := by simp [bulk]
theorem bulk_append (l m : List RT) : bulk (l ++ m) = bulk l + bulk m := by simp [bulk]
theorem bulk_length (l : List RT) : (l.length : ℝ) ≤ bulk l := by
  induction l with
  | nil => simp [bulk]
  | cons t l ih =>
    rw [bulk_cons, List.length_cons]
    push_cast
    have := le_max_left 1 |t.val|
    linarith
theorem bulk_nonneg (l : List RT) : 0 ≤ bulk l := le_trans (by positivity) (bulk_length l)
theorem size_le_bulk (l : List RT) : size l ≤ bulk l := by
  induction l with
  | nil => simp [size, bulk]
  | cons t l ih => rw [size_cons, bulk_cons]; have := le_max_right 1 |t.val|; linarith
theorem bulk_mem {l : List RT} {t : RT} (h : t ∈ l) : max 1 |t.val| ≤ bulk l := by
  induction l with
  | nil => cases h
  | cons u l ih =>
    rw [bulk_cons]
    rcases List.mem_cons.1 h with rfl | h
    · have := bulk_nonneg l; linarith
    · have := ih h; have := le_max_left 1 |u.val|; linarith
theorem val_le_bulk {l : List RT} {t : RT} (h : t ∈ l) : |t.val| ≤ bulk l := le_trans (le_max_right _ _) (bulk_mem h)

theorem merge_bulk : ∀ l : List RT, bulk (merge l) ≤ bulk l
  | [] => by unfold merge; exact le_rfl
  | [_] => by unfold merge; exact le_rfl
  | x :: y :: rest => by
    unfold merge
    split
    · rename_i h
      have h1 := merge_bulk (plus x y :: rest)
      rw [bulk_cons, plus_val h] at h1
      have h2 := abs_add_le x.val y.val
      have h3 : max 1 |x.val + y.val| ≤ max 1 |x.val| + max 1 |y.val| := by
        have := le_max_left 1 |x.val|
        have := le_max_left 1 |y.val|
        have := le_max_right 1 |x.val|
        have := le_max_right 1 |y.val|
        exact max_le (by linarith) (by linarith)
      rw [bulk_cons, bulk_cons]; linarith
    · have := merge_bulk (y :: rest)
      rw [bulk_cons, bulk_cons x]; linarith
termination_by l => l.length

/-- in simplest form, the index divides `I`. -/
structure In (I : Nat) (t : RT) : Prop where
  simplest : Simplest t.N t.i
  zero : t.a = 0 → t.N = 1
  dvd : t.i ∣ I

theorem plus_in {I : Nat} {x y : RT} (hx : x.In I) : (plus x y).In I := by
  unfold plus
  split
  · exact ⟨simplest11, fun _ => rfl, one_dvd _⟩
  · rename_i h
    exact ⟨hx.simplest, fun h' => absurd h' h, hx.dvd⟩

theorem merge_in {I : Nat} : ∀ {l : List RT}, (∀ t ∈ l, t.In I) → ∀ t ∈ merge l, t.In I
  | [], h => by unfold merge; exact h
  | [_], h => by unfold merge; exact h
  | x :: y :: rest, h => by
    unfold merge
    split
    · exact merge_in (List.forall_mem_cons.2 ⟨plus_in (h x (by simp)), fun t ht => h t (by simp [ht])⟩)
    · exact List.forall_mem_cons.2 ⟨h x (by simp), merge_in fun t ht => h t (List.mem_cons_of_mem _ ht)⟩
termination_by l => l.length

theorem root_pow {t : RT} (h : 0 < t.i) : ((t.N : ℝ) ^ ((1 : ℝ) / t.i)) ^ t.i = t.N := by
  rw [one_div]
  exact Real.rpow_inv_natCast_pow (by positivity) h.ne'

theorem root_ge {t : RT} (hN : 0 < t.N) : 1 ≤ (t.N : ℝ) ^ ((1 : ℝ) / t.i) :=
  Real.one_le_rpow (by exact_mod_cast hN) (by positivity)

theorem abs_val (t : RT) : |t.val| = |(t.a : ℝ)| * (t.N : ℝ) ^ ((1 : ℝ) / t.i) := by
  unfold val
  rw [abs_mul, abs_of_nonneg (a := (t.N : ℝ) ^ ((1 : ℝ) / t.i)) (by positivity)]

theorem coe_le {t : RT} (hN : 0 < t.N) : |(t.a : ℝ)| ≤ |t.val| := by
  rw [abs_val]
  exact le_mul_of_one_le_right (abs_nonneg _) (root_ge hN)

theorem root_le {t : RT} (ha : t.a ≠ 0) : (t.N : ℝ) ^ ((1 : ℝ) / t.i) ≤ |t.val| := by
  rw [abs_val]
  exact le_mul_of_one_le_left (by positivity) (by exact_mod_cast Int.one_le_abs ha)

theorem one_le_val {t : RT} (hN : 0 < t.N) (ha : t.a ≠ 0) : 1 ≤ |t.val| := le_trans (root_ge hN) (root_le ha)

theorem l1_size : ∀ {l : List RT}, (∀ t ∈ l, 0 < t.N) → (l1 l : ℝ) ≤ size l
  | [], _ => by simp [l1, size]
  | t :: l, h => by
    have ih := l1_size (l := l) fun t ht => h t (List.mem_cons_of_mem _ ht)
    have := coe_le (h t (by simp))
    rw [l1_cons, size_cons]
    push_cast
    linarith

/-- sums of roots whose indices divide `I`, of bounded size. -/
def Ring (I : Nat) (V : ℝ) (l : List RT) : Prop := (∀ t ∈ l, t.In I) ∧ bulk l ≤ V

/-- what the sizes must allow. -/
structure Room (B I : Nat) (V : ℝ) : Prop where
  I0 : 0 < I
  idx : I * I ≤ 2 ^ 53
  cmp : V ^ (I * I) ≤ 2 ^ 53
  rad : V ^ I ≤ B

section
variable {B I : Nat} {V : ℝ}

theorem Room.le53 (h : Room B I V) (h1 : 1 ≤ V) : V ≤ 2 ^ 53 :=
  le_trans (le_self_pow₀ h1 (Nat.mul_pos h.I0 h.I0).ne') h.cmp

theorem Room.mono (h : Room B I V) {W : ℝ} (h0 : 0 ≤ W) (hW : W ≤ V) : Room B I W :=
  ⟨h.I0, h.idx, le_trans (pow_le_pow_left₀ h0 hW _) h.cmp, le_trans (pow_le_pow_left₀ h0 hW _) h.rad⟩

theorem In.ok (hB : 1 ≤ B) {t : RT} (h : t.In I) (hv : Room B I V) (hV : |t.val| ≤ V) : t.Ok I B := by
  refine ⟨h.simplest, h.zero, Nat.le_of_dvd hv.I0 h.dvd, ?_⟩
  by_cases ha : t.a = 0
  · rw [h.zero ha]; exact hB
  · have r1 := root_ge (t := t) h.simplest.1
    have r2 := le_trans (root_le ha) hV
    have : (t.N : ℝ) ≤ B := by
      rw [← root_pow h.simplest.2.1]
      refine le_trans (pow_le_pow_left₀ (by positivity) r2 _) (le_trans (pow_le_pow_right₀ (le_trans r1 r2) (Nat.le_of_dvd hv.I0 h.dvd)) hv.rad)
    exact_mod_cast this

theorem In.cmp {t : RT} (h : t.In I) (hv : Room B I V) (hV : |t.val| ≤ V) : t.Cmp := by
  have hi := Nat.le_of_dvd hv.I0 h.dvd
  refine ⟨le_trans (Nat.mul_le_mul hi hi) hv.idx, ?_⟩
  have i0 := h.simplest.2.1
  by_cases ha : t.a = 0
  · rw [ha, Int.natAbs_zero, zero_pow (Nat.mul_pos i0 i0).ne', zero_mul]
    norm_num
  · have hV1 := le_trans (one_le_val h.simplest.1 ha) hV
    have : ((t.a.natAbs ^ (t.i * t.i) * t.N ^ t.i : ℕ) : ℝ) ≤ 2 ^ 53 := by
      push_cast
      rw [Nat.cast_natAbs, Int.cast_abs, ← root_pow (t := t) i0]
      calc |(t.a : ℝ)| ^ (t.i * t.i) * (((t.N : ℝ) ^ ((1 : ℝ) / t.i)) ^ t.i) ^ t.i = |t.val| ^ (t.i * t.i) := by
            rw [abs_val, mul_pow, ← pow_mul]
        _ ≤ V ^ (t.i * t.i) := pow_le_pow_left₀ (abs_nonneg _) hV _
        _ ≤ V ^ (I * I) := pow_le_pow_right₀ hV1 (Nat.mul_le_mul hi hi)
        _ ≤ _ := hv.cmp
    exact_mod_cast this

theorem neg_in {t : RT} (h : t.In I) : (neg t).In I := ⟨h.simplest, fun h0 => h.zero (by have : -t.a = 0 := h0; omega), h.dvd⟩

theorem neg_bulk (l : List RT) : bulk (l.map neg) = bulk l := by
  unfold bulk
  rw [List.map_map]
  congr 1
  refine List.map_congr_left fun t _ => ?_
  rw [Function.comp_apply, neg_val, abs_neg]

theorem Ring.l1 {l : List RT} (hv : Room B I V) (h : Ring I V l) : RT.l1 l ≤ 2 ^ 53 := by
  have h1 := le_trans (l1_size fun t ht => (h.1 t ht).simplest.1) (le_trans (size_le_bulk l) h.2)
  have : (RT.l1 l : ℝ) ≤ 2 ^ 53 := by
    by_cases h2 : 1 ≤ V
    · exact le_trans h1 (hv.le53 h2)
    · exact le_trans h1 (le_trans (not_le.1 h2).le (by norm_num))
  exact_mod_cast this

theorem ring_class {M : Int} (hM : (2 : Int) ^ 53 ≤ M) (hB : 1 ≤ B) (hv : Room B I V) : Class M I B (Ring I V) := by
  refine ⟨fun h t ht => (h.1 t ht).ok hB hv (le_trans (val_le_bulk ht) h.2), fun h t ht => (h.1 t ht).cmp hv (le_trans (val_le_bulk ht) h.2),
    fun h => le_trans (h.l1 hv) hM, fun hp h => ⟨fun t ht => h.1 t (hp.symm.subset ht), ?_⟩,
    fun h => ⟨merge_in h.1, le_trans (merge_bulk _) h.2⟩, fun h => ⟨?_, by rw [neg_bulk]; exact h.2⟩⟩
  · rw [show bulk _ = bulk _ from ((hp.map _).sum_eq).symm]; exact h.2
  · intro t ht
    obtain ⟨u, hu, rfl⟩ := List.mem_map.1 ht
    exact neg_in (h.1 u hu)

theorem Ring.append {W : ℝ} {l m : List RT} (h : Ring I V l) (h' : Ring I W m) : Ring I (V + W) (l ++ m) := by
  refine ⟨?_, by rw [bulk_append]; exact add_le_add h.2 h'.2⟩
  intro t ht
  rcases List.mem_append.1 ht with ht | ht
  exacts [h.1 t ht, h'.1 t ht]

/-! ### products -/

/-- the product of two terms. -/
theorem mul_term {env : FEnv} (hg : env.toEnv.Good B) (hB : 1 ≤ B) {t u : RT} (ht : t.In I) (hu : u.In I) (tB : t.N ≤ B) (uB : u.N ≤ B)
    (ta : |t.a| ≤ env.M) (ua : |u.a| ≤ env.M) (hv : Room B I V) (hV : |t.val| * |u.val| ≤ V) :
    ∃ p : RT, Term.mul env.toEnv t.term u.term = .ok p.term ∧ p.In I ∧ p.val = t.val * u.val := by
  have hM := hg.hM
  have i0 := ht.simplest.2.1
  have j0 := hu.simplest.2.1
  have L0 : 0 < Nat.lcm t.i u.i := Nat.lcm_pos i0 j0
  have LI : Nat.lcm t.i u.i ∣ I := Nat.lcm_dvd ht.dvd hu.dvd
  have LI' := Nat.le_of_dvd hv.I0 LI
  have l53 : Nat.lcm t.i u.i ≤ 2 ^ 53 := le_trans LI' (le_trans (Nat.le_mul_self I) hv.idx)
  have key : t.N ^ (Nat.lcm t.i u.i / t.i) * u.N ^ (Nat.lcm t.i u.i / u.i) ≤ B ∧
      |t.a * u.a| * (Real.outer (Nat.lcm t.i u.i) (t.N ^ (Nat.lcm t.i u.i / t.i) * u.N ^ (Nat.lcm t.i u.i / u.i)) : Nat) ≤ env.M := by
    have M0 : (0 : Int) ≤ env.M := le_trans (by norm_num) hM
    by_cases ha : t.a = 0
    · have e := ht.zero ha
      have e' := (simplest_one ht.simplest).1 e
      rw [e, e', Nat.lcm_one_left, Nat.div_self j0, one_pow, one_mul, pow_one, ha]
      simpa using ⟨uB, M0⟩
    by_cases hb : u.a = 0
    · have e := hu.zero hb
      have e' := (simplest_one hu.simplest).1 e
      rw [e, e', Nat.lcm_one_right, Nat.div_self i0, one_pow, mul_one, pow_one, hb]
      simpa using ⟨tB, M0⟩
    obtain ⟨p, hp⟩ := Nat.dvd_lcm_left t.i u.i
    obtain ⟨q, hq⟩ := Nat.dvd_lcm_right t.i u.i
    generalize hLe : Nat.lcm t.i u.i = L at *
    have ep : L / t.i = p := by rw [hp]; exact Nat.mul_div_cancel_left _ i0
    have eq : L / u.i = q := by rw [hq]; exact Nat.mul_div_cancel_left _ j0
    rw [ep, eq]
    have e1 : ((t.N ^ p * u.N ^ q : ℕ) : ℝ) = ((t.N : ℝ) ^ ((1 : ℝ) / t.i) * (u.N : ℝ) ^ ((1 : ℝ) / u.i)) ^ L := by
      push_cast
      rw [mul_pow]
      conv_rhs => rw [hp, pow_mul, root_pow i0, ← hp, hq, pow_mul, root_pow j0]
    have r1 := root_ge (t := t) ht.simplest.1
    have r2 := root_ge (t := u) hu.simplest.1
    have s1 := root_le ha
    have s2 := root_le hb
    have av : |(t.a : ℝ)| * |(u.a : ℝ)| * ((t.N : ℝ) ^ ((1 : ℝ) / t.i) * (u.N : ℝ) ^ ((1 : ℝ) / u.i)) ≤ V := by
      refine le_trans (le_of_eq ?_) hV
      rw [abs_val, abs_val]; ring
    have rV : (t.N : ℝ) ^ ((1 : ℝ) / t.i) * (u.N : ℝ) ^ ((1 : ℝ) / u.i) ≤ V :=
      le_trans (mul_le_mul s1 s2 (by positivity) (abs_nonneg _)) hV
    generalize (t.N : ℝ) ^ ((1 : ℝ) / t.i) = x at *
    generalize (u.N : ℝ) ^ ((1 : ℝ) / u.i) = y at *
    have xy : 1 ≤ x * y := by nlinarith
    have hV1 : 1 ≤ V := le_trans xy rV
    have Rp : 0 < t.N ^ p * u.N ^ q := Nat.mul_pos (pow_pos ht.simplest.1 _) (pow_pos hu.simplest.1 _)
    constructor
    · have : ((t.N ^ p * u.N ^ q : ℕ) : ℝ) ≤ B := by
        rw [e1]
        exact le_trans (pow_le_pow_left₀ (by linarith) rV _) (le_trans (pow_le_pow_right₀ hV1 LI') hv.rad)
      exact_mod_cast this
    · have fo := Real.free_outer (k := L) Rp
      have fp := Real.free_pos L (t.N ^ p * u.N ^ q)
      have o1 : Real.outer L (t.N ^ p * u.N ^ q) ^ L ≤ t.N ^ p * u.N ^ q := by
        conv_rhs => rw [← fo]
        exact Nat.le_mul_of_pos_left _ fp
      have o2 : ((Real.outer L (t.N ^ p * u.N ^ q) : ℕ) : ℝ) ≤ x * y := by
        refine le_of_pow_le_pow_left₀ L0.ne' (by linarith) ?_
        rw [← e1]
        exact_mod_cast o1
      generalize Real.outer L (t.N ^ p * u.N ^ q) = o at o2
      have : ((|t.a * u.a| * (o : Int) : Int) : ℝ) ≤ 2 ^ 53 := by
        push_cast
        rw [abs_mul]
        refine le_trans (mul_le_mul_of_nonneg_left o2 (by positivity)) (le_trans av (hv.le53 hV1))
      have : |t.a * u.a| * (o : Int) ≤ 2 ^ 53 := by exact_mod_cast this
      exact le_trans this hM
  obtain ⟨A, i', N', e, sm, z, -, dv, -, v⟩ := Real.mul_any hg hB ht.simplest hu.simplest ta ua l53 key.1 key.2
  refine ⟨⟨i', N', A⟩, ?_, ⟨sm, z, dvd_trans dv LI⟩, v⟩
  unfold Term.mul
  simp only [term, Term.ofReal]
  have : Syms.merge env.M [] [] = .ok [] := by unfold Syms.merge; rfl
  rw [this, Res.bind_ok, e, Res.bind_ok]
  unfold Syms.dropZero
  rfl

/-- the products of a term with all terms of a sum. -/
theorem mul_row {env : FEnv} (hg : env.toEnv.Good B) (hB : 1 ≤ B) (hv : Room B I V) {t : RT} (ht : t.In I) (tB : t.N ≤ B) (ta : |t.a| ≤ env.M) :
    ∀ {m : List RT}, (∀ u ∈ m, u.In I ∧ u.N ≤ B ∧ |u.a| ≤ env.M ∧ |t.val| * |u.val| ≤ V) →
      ∃ q : List RT, Poly.mapM (Term.mul env.toEnv t.term) (m.map term) = .ok (q.map term) ∧ (∀ p ∈ q, p.In I) ∧
        bulk q ≤ max 1 |t.val| * bulk m ∧ sum q = t.val * sum m ∧ q.length = m.length
  | [], _ => ⟨[], rfl, by simp, by simp [bulk], by simp [sum], rfl⟩
  | u :: m, h => by
    obtain ⟨hu, uB, ua, uV⟩ := h u (by simp)
    obtain ⟨p, p1, p2, p3⟩ := mul_term hg hB ht hu tB uB ta ua hv uV
    obtain ⟨q, q1, q2, q3, q4, q5⟩ := mul_row hg hB hv ht tB ta (m := m) fun u hu => h u (List.mem_cons_of_mem _ hu)
    refine ⟨p :: q, ?_, List.forall_mem_cons.2 ⟨p2, q2⟩, ?_, ?_, by simp [q5]⟩
    · rw [List.map_cons]
      unfold Poly.mapM
      rw [p1, Res.bind_ok, q1, Res.bind_ok]
      rfl
    · rw [bulk_cons, bulk_cons, p3, abs_mul, mul_add]
      refine add_le_add (max_le ?_ ?_) q3
      · exact one_le_mul_of_one_le_of_one_le (le_max_left _ _) (le_max_left _ _)
      · exact mul_le_mul (le_max_right _ _) (le_max_right _ _) (abs_nonneg _) (le_trans zero_le_one (le_max_left _ _))
    · rw [sum_cons, sum_cons, q4, p3]; ring

theorem mul_all {env : FEnv} (hg : env.toEnv.Good B) (hB : 1 ≤ B) (hv : Room B I V) {m : List RT} :
    ∀ {l : List RT}, (∀ t ∈ l, (t.In I ∧ t.N ≤ B ∧ |t.a| ≤ env.M) ∧ ∀ u ∈ m, u.In I ∧ u.N ≤ B ∧ |u.a| ≤ env.M ∧ |t.val| * |u.val| ≤ V) →
      ∃ q : List RT, Poly.products env.toEnv (l.map term) (m.map term) = .ok (q.map term) ∧ (∀ p ∈ q, p.In I) ∧
        bulk q ≤ bulk l * bulk m ∧ sum q = sum l * sum m ∧ q.length = l.length * m.length
  | [], _ => ⟨[], rfl, by simp, by simp [bulk], by simp [sum], by simp⟩
  | t :: l, h => by
    obtain ⟨⟨ht, tB, ta⟩, hm⟩ := h t (by simp)
    obtain ⟨p, p1, p2, p3, p4, p5⟩ := mul_row hg hB hv ht tB ta hm
    obtain ⟨q, q1, q2, q3, q4, q5⟩ := mul_all hg hB hv (l := l) fun u hu => h u (List.mem_cons_of_mem _ hu)
    refine ⟨p ++ q, ?_, ?_, ?_, ?_, ?_⟩
    · rw [List.map_cons]
      unfold Poly.products
      rw [p1, Res.bind_ok, q1, Res.bind_ok, List.map_append]
    · intro x hx
      rcases List.mem_append.1 hx with hx | hx
      exacts [p2 x hx, q2 x hx]
    · rw [bulk_append, bulk_cons, add_mul]; exact add_le_add p3 q3
    · rw [sum_append, sum_cons, p4, q4]; ring
    · rw [List.length_append, p5, q5, List.length_cons]; ring

theorem mul_frac {env : FEnv} (hg : env.toEnv.Good B) (hB : 1 ≤ B) (hs : SortContract env) (hr : SortReturns env) (ht : Poly.SortTotal env)
    {U W : ℝ} (hu : Room B I U) (hw : Room B I W) (hv : Room B I (U * W)) {l m : List RT} (h : Ring I U l) (h' : Ring I W m)
    (h0 : l ≠ []) (h1 : m ≠ []) :
    ∃ l' : List RT, Frac.mul env (frac l) (frac m) = .ok (frac l') ∧ Ring I (U * W) l' ∧ sum l' = sum l * sum m ∧ l' ≠ [] ∧
      l'.length ≤ l.length * m.length ∧ (nz l').Pairwise fun x y => y.grp < x.grp := by
  have hM := hg.hM
  have io := (hg.powOk hB).toIntOk
  have a1 := Real.abs1 io
  have cu := ring_class hM hB hu
  have cw := ring_class hM hB hw
  have cv := ring_class hM hB hv
  have hI53 : I ≤ 2 ^ 53 := le_trans (Nat.le_mul_self I) hu.idx
  obtain ⟨q, q1, q2, q3, q4, q5⟩ := mul_all (env := env) hg hB hv (l := l) (m := m) (by
    intro t ht
    refine ⟨⟨h.1 t ht, (cu.ok h t ht).rad, le_trans (l1_mem ht) (cu.fits h)⟩, fun u hu => ⟨h'.1 u hu, (cw.ok h' u hu).rad,
      le_trans (l1_mem hu) (cw.fits h'), ?_⟩⟩
    have s1 := le_trans (val_le_bulk ht) h.2
    exact mul_le_mul s1 (le_trans (val_le_bulk hu) h'.2) (abs_nonneg _) (le_trans (abs_nonneg _) s1))
  have hq : Ring I (U * W) q := ⟨q2, by
    exact le_trans q3 (mul_le_mul h.2 h'.2 (bulk_nonneg m) (le_trans (bulk_nonneg l) h.2))⟩
  have q0 : q ≠ [] := by
    rw [← List.length_pos_iff, q5]
    exact Nat.mul_pos (List.length_pos_iff.2 h0) (List.length_pos_iff.2 h1)
  obtain ⟨k, k1, k2, k4, k5, k7, -⟩ := normalize_ok hg le_rfl hs hr cv hq
  obtain ⟨r, r1, r2, r4, r5, r7, r6⟩ := normalize_frac hg hB le_rfl hs hr ht hI53 cv k2 (k5 q0)
  refine ⟨r, ?_, r2, by rw [r4, k4, q4], r5, by omega, r6⟩
  unfold Frac.mul
  have e1 : Poly.mulAssign env (frac l).num (frac m).num = .ok (k.map term) := by
    unfold Poly.mulAssign
    show (Poly.products env.toEnv (l.map term) (m.map term) >>= _) = _
    rw [q1, Res.bind_ok, k1]
  have e2 : Poly.mulAssign env (frac l).den (frac m).den = .ok [Term.con 1] :=
    Frac.mul_single io hs.ok ht a1 a1 (by simpa using a1)
  rw [e1, Res.bind_ok, e2, Res.bind_ok]
  exact r1

end
theorem In.int {I : Nat} {t : RT} (h : t.In I) (hI : I = 1) : t.N = 1 := by
  obtain ⟨N0, -, h3, -⟩ := h.simplest
  have hi : t.i = 1 := Nat.dvd_one.1 (hI ▸ h.dvd)
  by_contra hN
  exact h3 t.N (by omega) (by rw [hi, pow_one])

theorem sum_int {l : List RT} (h : ∀ t ∈ l, t.N = 1) : sum l = ((l.map (·.a)).sum : Int) := by
  induction l with
  | nil => simp [sum]
  | cons t l ih =>
    have h1 : t.val = t.a := by simp [val, h t (List.mem_cons_self ..)]
    rw [sum_cons, h1, ih fun u hu => h u (List.mem_cons_of_mem _ hu)]
    simp

/-- if not all roots are of index 1, there are few terms. -/
theorem Ring.few {B I : Nat} {V : ℝ} {l : List RT} (h : Ring I V l) (hv : Room B I V) (hI : 2 ≤ I) : l.length ≤ 2 ^ 15 := by
  have hl := le_trans (bulk_length l) h.2
  by_contra hc
  have h1 : (2 ^ 15 : ℝ) ≤ V := le_trans (by exact_mod_cast (not_le.1 hc).le) hl
  have h2 : V ^ 4 ≤ V ^ (I * I) := pow_le_pow_right₀ (le_trans (by norm_num) h1) (by nlinarith)
  have h3 : ((2 ^ 15 : ℝ)) ^ 4 ≤ V ^ 4 := pow_le_pow_left₀ (by norm_num) h1 4
  have h4 := hv.cmp
  norm_num at h3 h4
  linarith

end RT
end Symxx.Sym

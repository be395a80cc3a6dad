import Verif.Frac.SurdMul
import Verif.Frac.Tidy
/-!
# Sums of roots: sorting and merging
-/
namespace Symxx.Num
namespace Real
variable {env : Env} {B : Nat}

/-- no root is kept before a zero. -/
theorem normalize_zero (hg : env.Good B) {i N : Nat} (hs : Simplest N i) (hN : N ≤ B) :
    normalize env ⟨i, ⟨N, 1⟩, ⟨0, 1⟩⟩ = .ok (int 0) := by
  have hM := hg.M1
  rw [normalize_int, normInt_eq hg i N hs.2.1 hs.1 hN, stripAll_id i (decN N) (by
    intro r hr
    obtain ⟨p, -, e, -⟩ := key_decN hr
    rw [e]; exact hs.lt p)]
  simp only [Res.bind_ok]
  rw [if_neg (by simp), Res.bind_ok]
  simp only
  rw [tail_eq hg i N hs.2.1 hs.1 hN, Rational.eqInt_spec env.M ⟨0, 1⟩ 0 hg.M1 (by norm_num) ⟨by simpa using (by omega : (0 : Int) ≤ env.M), by simpa using hM⟩]
  simp [int]

end Real
end Symxx.Num

namespace Symxx.Sym
open Symxx.Num

/-- the term `a N^(1/i)`. -/
structure RT where
  i : Nat
  N : Nat
  a : Int
deriving DecidableEq

namespace RT

/-- as a term of the library. -/
def term (t : RT) : Term := Term.ofReal ⟨t.i, ⟨t.N, 1⟩, ⟨t.a, 1⟩⟩

/-- its value. -/
noncomputable def val (t : RT) : ℝ := t.a * (t.N : ℝ) ^ ((1 : ℝ) / t.i)

/-- index and radicand. -/
def grp (t : RT) : ℕ ×ₗ ℕ := toLex (t.i, t.N)

/-- in simplest form, of bounded size. -/
structure Ok (I R : Nat) (t : RT) : Prop where
  simplest : Simplest t.N t.i
  zero : t.a = 0 → t.N = 1
  idx : t.i ≤ I
  rad : t.N ≤ R

theorem Ok.one {I R : Nat} {t : RT} (h : t.Ok I R) : t.a = 0 → t.i = 1 ∧ t.N = 1 := fun h0 =>
  ⟨(simplest_one h.simplest).1 (h.zero h0), h.zero h0⟩

theorem Ok.canon {I R : Nat} {t : RT} (h : t.Ok I R) : t.term.coe.Canon := ⟨t.N, rfl, h.simplest, one_ne_zero, h.zero⟩

theorem coe_val (t : RT) : t.term.coe.val = t.val := by
  have v := Real.val_mk t.i t.N 1 ⟨t.a, 1⟩
  simp only [Nat.cast_one, div_one] at v
  show Real.val ⟨t.i, ⟨t.N, 1⟩, ⟨t.a, 1⟩⟩ = _
  rw [v]
  simp [Rational.val, val]

/-- the sum of two terms with the same root. -/
def plus (x y : RT) : RT := if x.a + y.a = 0 then ⟨1, 1, 0⟩ else ⟨x.i, x.N, x.a + y.a⟩

/-- neighbours with the same root are added. -/
def merge : List RT → List RT
  | [] => []
  | [t] => [t]
  | x :: y :: rest => if x.i = y.i ∧ x.N = y.N then merge (plus x y :: rest) else x :: merge (y :: rest)
termination_by l => l.length

/-- the sum of the sizes of the coefficients. -/
def l1 (l : List RT) : Int := (l.map fun t => |t.a|).sum

/-- the value of a sum. -/
noncomputable def sum (l : List RT) : ℝ := (l.map val).sum

theorem l1_cons (t : RT) (l : List RT) : l1 (t :: l) = |t.a| + l1 l := by simp [l1]
theorem l1_nonneg (l : List RT) : 0 ≤ l1 l := by
  induction l with
  | nil => exact le_rfl
  | cons t l ih => rw [l1_cons]; positivity
theorem sum_cons (t : RT) (l : List RT) : sum (t :: l) = t.val + sum l := by simp [sum]
theorem l1_mem {l : List RT} {t : RT} (h : t ∈ l) : |t.a| ≤ l1 l := by
  induction l with
  | nil => cases h
  | cons u l ih =>
    rw [l1_cons]
    rcases List.mem_cons.1 h with rfl | h
    · have := l1_nonneg l; omega
    · have := ih h; have := abs_nonneg u.a; omega

theorem simplest11 : Simplest 1 1 := by
  refine ⟨one_pos, one_pos, fun m hm hd => ?_, fun m d _ h2 => Nat.dvd_one.1 h2⟩
  have := Nat.le_of_dvd one_pos hd
  rw [pow_one] at this
  omega

theorem plus_ok {I R : Nat} {x y : RT} (hx : x.Ok I R) : (plus x y).Ok I R := by
  unfold plus
  split
  · exact ⟨simplest11, fun _ => rfl, le_trans (by have := hx.simplest.2.1; show 1 ≤ x.i; omega) hx.idx,
      le_trans (by have := hx.simplest.1; show 1 ≤ x.N; omega) hx.rad⟩
  · rename_i h
    exact ⟨hx.simplest, fun h' => absurd h' h, hx.idx, hx.rad⟩

theorem plus_abs (x y : RT) : |(plus x y).a| ≤ |x.a| + |y.a| := by
  unfold plus
  split
  · have := abs_nonneg x.a
    have := abs_nonneg y.a
    simp only [abs_zero]; omega
  · exact abs_add_le _ _

theorem plus_val {x y : RT} (h : x.i = y.i ∧ x.N = y.N) : (plus x y).val = x.val + y.val := by
  have e : x.val + y.val = ((x.a + y.a : Int) : ℝ) * (x.N : ℝ) ^ ((1 : ℝ) / x.i) := by
    unfold val
    rw [← h.1, ← h.2]
    push_cast
    ring
  rw [e]
  unfold plus
  split
  · rename_i h0
    rw [h0]
    simp [val]
  · rfl

theorem plus_grp {x y : RT} : (plus x y).a = 0 ∨ (plus x y).grp = x.grp := by
  unfold plus
  split
  · exact Or.inl rfl
  · exact Or.inr rfl

theorem merge_ok {I R : Nat} : ∀ {l : List RT}, (∀ t ∈ l, t.Ok I R) → ∀ t ∈ merge l, t.Ok I R
  | [], h => by unfold merge; exact h
  | [_], h => by unfold merge; exact h
  | x :: y :: rest, h => by
    unfold merge
    split
    · exact merge_ok (List.forall_mem_cons.2 ⟨plus_ok (h x (by simp)), fun t ht => h t (by simp [ht])⟩)
    · exact List.forall_mem_cons.2 ⟨h x (by simp), merge_ok fun t ht => h t (List.mem_cons_of_mem _ ht)⟩
termination_by l => l.length

theorem merge_length : ∀ l : List RT, (merge l).length ≤ l.length
  | [] => by unfold merge; exact le_rfl
  | [_] => by unfold merge; exact le_rfl
  | x :: y :: rest => by
    unfold merge
    split
    · exact le_trans (merge_length (plus x y :: rest)) (by simp)
    · exact Nat.succ_le_succ (merge_length (y :: rest))
termination_by l => l.length

theorem merge_l1 : ∀ l : List RT, l1 (merge l) ≤ l1 l
  | [] => by unfold merge; exact le_rfl
  | [_] => by unfold merge; exact le_rfl
  | x :: y :: rest => by
    unfold merge
    split
    · have := merge_l1 (plus x y :: rest)
      rw [l1_cons] at this
      have := plus_abs x y
      rw [l1_cons, l1_cons]; omega
    · have := merge_l1 (y :: rest)
      rw [l1_cons, l1_cons x]; omega
termination_by l => l.length

theorem merge_sum : ∀ l : List RT, sum (merge l) = sum l
  | [] => by unfold merge; rfl
  | [_] => by unfold merge; rfl
  | x :: y :: rest => by
    unfold merge
    split
    · rename_i h
      rw [merge_sum (plus x y :: rest), sum_cons, sum_cons, sum_cons, plus_val h]; ring
    · rw [sum_cons, merge_sum (y :: rest), sum_cons x]
termination_by l => l.length

theorem merge_ne : ∀ {l : List RT}, l ≠ [] → merge l ≠ []
  | [], h => absurd rfl h
  | [_], h => by unfold merge; exact h
  | x :: y :: rest, _ => by
    unfold merge
    split
    · exact merge_ne (by simp)
    · simp
termination_by l => l.length

/-- the negative. -/
def neg (t : RT) : RT := ⟨t.i, t.N, -t.a⟩

theorem neg_ok {I R : Nat} {t : RT} (h : t.Ok I R) : (neg t).Ok I R :=
  ⟨h.simplest, fun h0 => h.zero (by have : -t.a = 0 := h0; omega), h.idx, h.rad⟩

theorem neg_val (t : RT) : (neg t).val = - t.val := by unfold neg val; push_cast; ring

theorem neg_l1 (l : List RT) : l1 (l.map neg) = l1 l := by
  unfold l1
  rw [List.map_map]
  congr 1
  refine List.map_congr_left fun t _ => ?_
  show |-t.a| = |t.a|
  rw [abs_neg]

/-- powers of the term fit where it is compared with a term with the same root. -/
def Cmp (t : RT) : Prop := t.i * t.i ≤ 2 ^ 53 ∧ t.a.natAbs ^ (t.i * t.i) * t.N ^ t.i ≤ 2 ^ 53

/-- a kind of sums for which sorting and merging works and that they do not leave. -/
structure Class (M : Int) (I R : Nat) (P : List RT → Prop) : Prop where
  ok : ∀ {l}, P l → ∀ t ∈ l, t.Ok I R
  cmp : ∀ {l}, P l → ∀ t ∈ l, t.Cmp
  fits : ∀ {l}, P l → l1 l ≤ M
  perm : ∀ {l m}, l.Perm m → P l → P m
  merge : ∀ {l}, P l → P (merge l)
  neg : ∀ {l}, P l → P (l.map neg)

/-- sums with small integers before the roots. -/
def Small (I R L : Nat) (l : List RT) : Prop := (∀ t ∈ l, t.Ok I R) ∧ l1 l ≤ L

theorem small_class {M : Int} {I R L : Nat} (hL : L ^ (I * I) * R ^ I ≤ 2 ^ 53) (hI : I * I ≤ 2 ^ 53) (hLM : (L : Int) ≤ M) :
    Class M I R (Small I R L) := by
  refine ⟨fun h => h.1, fun h t ht => ?_, fun h => le_trans h.2 hLM, fun hp h => ⟨fun t ht => h.1 t (hp.symm.subset ht), ?_⟩,
    fun h => ⟨merge_ok h.1, le_trans (merge_l1 _) h.2⟩, fun h => ⟨?_, by rw [neg_l1]; exact h.2⟩⟩
  · have hu := h.1 t ht
    have ha : t.a.natAbs ≤ L := by
      have : ((t.a.natAbs : Nat) : Int) ≤ L := by rw [Int.natCast_natAbs]; exact le_trans (l1_mem ht) h.2
      exact_mod_cast this
    refine ⟨le_trans (Nat.mul_le_mul hu.idx hu.idx) hI, ?_⟩
    have u0 := hu.simplest.2.1
    by_cases hL0 : L = 0
    · have : t.a.natAbs = 0 := by omega
      rw [this, zero_pow (Nat.mul_pos u0 u0).ne', zero_mul]
      norm_num
    · refine le_trans (Nat.mul_le_mul ?_ ?_) hL
      · exact le_trans (Nat.pow_le_pow_left ha _) (Nat.pow_le_pow_right (Nat.pos_of_ne_zero hL0) (Nat.mul_le_mul hu.idx hu.idx))
      · exact le_trans (Nat.pow_le_pow_left hu.rad _) (Nat.pow_le_pow_right (lt_of_lt_of_le hu.simplest.1 hu.rad) hu.idx)
  · rw [show l1 _ = l1 _ from ((hp.map _).sum_eq).symm]; exact h.2
  · intro t ht
    obtain ⟨u, hu, rfl⟩ := List.mem_map.1 ht
    exact neg_ok (h.1 u hu)

/-- the terms that are not zero. -/
def nz (l : List RT) : List RT := l.filter fun t => t.a ≠ 0

theorem nz_cons_zero {t : RT} {l : List RT} (h : t.a = 0) : nz (t :: l) = nz l := by unfold nz; simp [h]
theorem nz_cons {t : RT} {l : List RT} (h : t.a ≠ 0) : nz (t :: l) = t :: nz l := by unfold nz; simp [h]
theorem mem_nz {t : RT} {l : List RT} : t ∈ nz l ↔ t ∈ l ∧ t.a ≠ 0 := by unfold nz; simp

theorem merge_dec : ∀ {l : List RT},
    (∀ a rest, l = a :: rest → rest.Pairwise (fun x y => y.grp ≤ x.grp) ∧ (a.a = 0 ∨ ∀ b ∈ rest, b.grp ≤ a.grp)) →
    (nz (merge l)).Pairwise (fun x y => y.grp < x.grp) ∧
      ∀ X, (∀ t ∈ l, t.a = 0 ∨ t.grp ≤ X) → ∀ t ∈ nz (merge l), t.grp ≤ X
  | [], _ => by unfold merge; simp [nz]
  | [t], _ => by
    unfold merge
    refine ⟨List.Pairwise.filter _ (List.pairwise_singleton _ _), fun X hX u hu => ?_⟩
    obtain ⟨h1, h2⟩ := mem_nz.1 hu
    exact (hX u h1).resolve_left h2
  | a :: b :: rest, hsrt => by
    obtain ⟨hs1, hs2⟩ := hsrt a (b :: rest) rfl
    obtain ⟨hs3, hs4⟩ := List.pairwise_cons.1 hs1
    unfold merge
    split
    · rename_i hab
      have hab' : b.grp = a.grp := by unfold grp; rw [hab.1, hab.2]
      obtain ⟨i2, i3⟩ := merge_dec (l := plus a b :: rest) (by
        intro a' rest' e
        injection e with e1 e2
        subst e1; subst e2
        exact ⟨hs4, plus_grp.imp id fun e => by rw [e, ← hab']; exact hs3⟩)
      refine ⟨i2, fun X hX => i3 X ?_⟩
      intro u hu
      rcases List.mem_cons.1 hu with rfl | hu
      · rcases plus_grp (x := a) (y := b) with m2 | m2
        · exact Or.inl m2
        · by_cases h0 : (plus a b).a = 0
          · exact Or.inl h0
          right
          rcases hX a (by simp) with z1 | z1
          · rcases hX b (by simp) with z2 | z2
            · exfalso
              apply h0
              unfold plus
              rw [z1, z2]; simp
            · rw [m2, ← hab']; exact z2
          · rw [m2]; exact z1
      · exact hX u (by simp [hu])
    · rename_i hab
      have hne : a.grp ≠ b.grp := fun e => hab (by
        unfold grp at e
        simpa using e)
      obtain ⟨i2, i3⟩ := merge_dec (l := b :: rest) (by
        intro a' rest' e
        injection e with e1 e2
        subst e1; subst e2
        exact ⟨hs4, Or.inr hs3⟩)
      refine ⟨?_, ?_⟩
      · by_cases h0 : a.a = 0
        · rw [nz_cons_zero h0]; exact i2
        · rw [nz_cons h0, List.pairwise_cons]
          refine ⟨fun u hu => ?_, i2⟩
          have hle := hs2.resolve_left h0
          have hlt : b.grp < a.grp := lt_of_le_of_ne (hle b (by simp)) (Ne.symm hne)
          refine lt_of_le_of_lt (i3 b.grp (fun t ht => Or.inr ?_) u hu) hlt
          rcases List.mem_cons.1 ht with rfl | ht
          · exact le_rfl
          · exact hs3 t ht
      · intro X hX u hu
        obtain ⟨u1, u2⟩ := mem_nz.1 hu
        rcases List.mem_cons.1 u1 with rfl | u1
        · exact (hX u (by simp)).resolve_left u2
        · exact i3 X (fun t ht => hX t (by simp only [List.mem_cons] at ht ⊢; tauto)) u (mem_nz.2 ⟨u1, u2⟩)
termination_by l => l.length

/-! ### the model -/

section
variable {env : Env} {B I R : Nat} (hg : env.Good B) (hR : R ≤ B)
include hg hR

theorem rad_abs {t : RT} (h : t.Ok I R) : |(t.N : Int)| ≤ env.M := by
  rw [abs_of_nonneg (by positivity)]
  exact hg.leM (le_trans h.rad hR)

theorem equiv_ok {x y : RT} (hx : x.Ok I R) (hy : y.Ok I R) :
    Term.isEquivalentWith env x.term y.term = .ok (decide (x.i = y.i ∧ x.N = y.N)) := by
  have h1 : Real.isEquivalentWith env x.term.coe y.term.coe = .ok (decide (x.i = y.i ∧ x.N = y.N)) := by
    have e := Rational.eq_int (rad_abs hg hR hx) (rad_abs hg hR hy)
    have e' := Rational.eqInt_int hg.M1 (rad_abs hg hR hx) (k := 1) (by simpa using hg.M1)
    have sx := simplest_one hx.simplest
    have sy := simplest_one hy.simplest
    unfold Real.isEquivalentWith
    show (Rational.eq env.M ⟨x.N, 1⟩ ⟨y.N, 1⟩ >>= _) = _
    simp only [term, Term.ofReal]
    rw [e, e', Res.bind_ok]
    by_cases hN : x.N = y.N
    · have hN' : (x.N : Int) = y.N := by exact_mod_cast hN
      simp only [hN', decide_true, if_true, Res.bind_ok, Bool.true_and]
      by_cases h1 : y.N = 1
      · have hi : x.i = y.i := by rw [sx.1 (by omega), sy.1 h1]
        have h1' : (y.N : Int) = 1 := by exact_mod_cast h1
        simp [h1', hN, hi]
      · have h1' : ¬ (y.N : Int) = 1 := by exact_mod_cast h1
        simp only [h1', decide_false, Bool.false_eq_true, if_false]
        split
        · rename_i hh
          simp [hh.1, hN]
        · simp only [hN, and_true]
          congr
    · have hN' : ¬ (x.N : Int) = y.N := by exact_mod_cast hN
      simp only [hN', decide_false, Bool.false_eq_true, if_false, Res.bind_ok, Bool.false_and]
      split
      · rename_i hh
        exact absurd (by rw [sx.2 hh.2, sy.2 (by omega)]) hN
      · simp [hN]
  unfold Term.isEquivalentWith
  have : Syms.eq env.M x.term.syms y.term.syms = .ok true := by
    show Syms.eq env.M [] [] = _
    unfold Syms.eq; rfl
  rw [this, Res.bind_ok, if_pos rfl, h1]

theorem add_ok {x y : RT} (hx : x.Ok I R) (hy : y.Ok I R) (h : x.i = y.i ∧ x.N = y.N) (ha : |x.a| ≤ env.M) (hb : |y.a| ≤ env.M)
    (hab : |x.a + y.a| ≤ env.M) : Real.add env x.term.coe y.term.coe = .ok (plus x y).term.coe := by
  have e : Real.isEquivalentWith env x.term.coe y.term.coe = .ok true := by
    have e := equiv_ok hg hR hx hy
    unfold Term.isEquivalentWith at e
    have : Syms.eq env.M x.term.syms y.term.syms = .ok true := by
      show Syms.eq env.M [] [] = _
      unfold Syms.eq; rfl
    rw [this, Res.bind_ok, if_pos rfl] at e
    rw [e]
    simp [h]
  unfold Real.add
  rw [e, Res.bind_ok, Bool.not_true, if_neg (by simp)]
  show (Rational.add env.M ⟨x.a, 1⟩ ⟨y.a, 1⟩ >>= _) = _
  rw [Rational.add_int hg.M1 ha hb hab, Res.bind_ok]
  show Real.normalize env ⟨x.i, ⟨x.N, 1⟩, ⟨x.a + y.a, 1⟩⟩ = _
  unfold plus
  split
  · rename_i h0
    rw [h0]
    exact Real.normalize_zero hg hx.simplest (le_trans hx.rad hR)
  · rename_i h0
    exact Real.normalize_canon hg ⟨x.N, rfl, hx.simplest, one_ne_zero, fun h => absurd h h0⟩
      (by show (x.N : Int) ≤ B; exact_mod_cast le_trans hx.rad hR) ⟨hab, by simpa using hg.M1⟩

theorem mergeAdj_ok : ∀ {l : List RT}, (∀ t ∈ l, t.Ok I R) → l1 l ≤ env.M →
    Poly.mergeAdj env (l.map term) = .ok ((merge l).map term)
  | [], _, _ => by unfold merge Poly.mergeAdj; rfl
  | [_], _, _ => by unfold merge Poly.mergeAdj; rfl
  | x :: y :: rest, h, hl => by
    have hx := h x (by simp)
    have hy := h y (by simp)
    have hr : ∀ t ∈ rest, t.Ok I R := fun t ht => h t (by simp [ht])
    rw [l1_cons, l1_cons] at hl
    have n1 := l1_nonneg rest
    have n2 := abs_nonneg x.a
    have n3 := abs_nonneg y.a
    have n4 := abs_add_le x.a y.a
    have n5 := plus_abs x y
    unfold merge Poly.mergeAdj
    rw [List.map_cons, List.map_cons]
    simp only
    rw [equiv_ok hg hR hx hy, Res.bind_ok]
    by_cases hc : x.i = y.i ∧ x.N = y.N
    · rw [if_pos (by simpa using hc), if_pos hc, add_ok hg hR hx hy hc (by omega) (by omega) (by omega), Res.bind_ok]
      have : Term.mk' env (plus x y).term.coe x.term.syms = .ok (plus x y).term := by
        unfold Term.mk'
        show (Syms.dropZero env.M [] >>= _) = _
        unfold Syms.dropZero
        rfl
      rw [this, Res.bind_ok]
      exact mergeAdj_ok (l := plus x y :: rest) (List.forall_mem_cons.2 ⟨plus_ok hx, hr⟩) (by rw [l1_cons]; omega)
    · rw [if_neg (by simpa using hc), if_neg hc]
      have := mergeAdj_ok (l := y :: rest) (List.forall_mem_cons.2 ⟨hy, hr⟩) (by rw [l1_cons]; omega)
      rw [List.map_cons] at this
      rw [this, Res.bind_ok]
      rfl
termination_by l => l.length

/-- comparisons are exact. -/
theorem before_ok {x y : RT} (hx : x.Ok I R) (hy : y.Ok I R) (cx : x.Cmp) (cy : y.Cmp) (ha : |x.a| ≤ env.M) (hb : |y.a| ≤ env.M) :
    ∃ v, Term.before env x.term y.term = .ok v ∧ (v = true ↔ y.term.key < x.term.key) := by
  have hM := hg.hM
  have nx := rad_abs hg hR hx
  have ny := rad_abs hg hR hy
  have vx : x.term.coe.rad.val = x.N := by show Rational.val ⟨x.N, 1⟩ = _; simp [Rational.val]
  have vy : y.term.coe.rad.val = y.N := by show Rational.val ⟨y.N, 1⟩ = _; simp [Rational.val]
  have kx : x.term.group = toLex ([], toLex (x.i, (x.N : ℚ))) := by unfold Term.group; rw [vx]; rfl
  have ky : y.term.group = toLex ([], toLex (y.i, (y.N : ℚ))) := by unfold Term.group; rw [vy]; rfl
  have e1 : Syms.eq env.M x.term.syms y.term.syms = .ok true := by
    show Syms.eq env.M [] [] = _
    unfold Syms.eq; rfl
  have hkey : y.term.key < x.term.key ↔ y.i < x.i ∨ y.i = x.i ∧ (y.N < x.N ∨ y.N = x.N ∧ y.term.coe.val < x.term.coe.val) := by
    unfold Term.key
    rw [kx, ky]
    simp only [Prod.Lex.toLex_lt_toLex, toLex_inj, Prod.mk.injEq, lt_irrefl, true_and, false_or, Nat.cast_lt, Nat.cast_inj]
    tauto
  unfold Term.before
  rw [e1, Res.bind_ok, Bool.not_true, if_neg (by simp)]
  show ∃ v, (if x.i ≠ y.i then Res.ok (decide (x.i > y.i)) else _) = .ok v ∧ _
  by_cases hi : x.i = y.i
  · rw [if_neg (not_not.2 hi)]
    show ∃ v, (Rational.ne env.M ⟨x.N, 1⟩ ⟨y.N, 1⟩ >>= _) = .ok v ∧ _
    rw [Rational.ne_int nx ny, Res.bind_ok]
    by_cases hN : x.N = y.N
    · have hN' : (x.N : Int) = y.N := by exact_mod_cast hN
      rw [if_neg (by simp [hN'])]
      have i0 := hx.simplest.2.1
      have size : ∀ {u w : RT}, u.i = w.i → u.Cmp → u.a.natAbs ^ (w.i * u.i) * u.N ^ w.i ≤ 2 ^ 53 := by
        intro u w e hu
        rw [← e]; exact hu.2
      have cs : ∀ {u w : RT}, u.i = w.i → u.Cmp → Real.CmpSizes u.term.coe w.term.coe := by
        intro u w e hu
        refine ⟨?_, ?_, ?_⟩
        · show w.i * u.i ≤ _
          rw [← e]; exact hu.1
        · have := size e hu
          show u.a.natAbs ^ (w.i * u.i) * ((u.N : Int)).natAbs ^ w.i ≤ _
          rwa [Int.natAbs_natCast]
        · show ((1 : Int)).natAbs ^ (w.i * u.i) ≤ _
          norm_num
      obtain ⟨v, h1, h2⟩ := (Real.gt_sat (env := env) hM hg.exact hx.canon hy.canon one_pos one_pos (cs hi cx) (cs hi.symm cy)).defined (by
        have s1 := size hi cx
        have s2 := size hi.symm cy
        refine ⟨⟨?_, ?_⟩, ⟨?_, ?_⟩, ?_, ?_⟩
        · show (((x.a.natAbs ^ (y.i * x.i) * ((x.N : Int)).natAbs ^ y.i * ((1 : Int)).natAbs ^ (y.i * x.i) : Nat)) : Int) ≤ _
          simp only [Int.natAbs_natCast, Int.natAbs_one, one_pow, mul_one]
          exact le_trans (by exact_mod_cast s1) hM
        · show (((y.a.natAbs ^ (y.i * x.i) * ((y.N : Int)).natAbs ^ x.i * ((1 : Int)).natAbs ^ (y.i * x.i) : Nat)) : Int) ≤ _
          simp only [Int.natAbs_natCast, Int.natAbs_one, one_pow, mul_one]
          rw [mul_comm y.i x.i]
          exact le_trans (by exact_mod_cast s2) hM
        · show |x.a| * |(1 : Int)| ≤ _
          rw [abs_one, mul_one]; exact ha
        · show |y.a| * |(1 : Int)| ≤ _
          rw [abs_one, mul_one]; exact hb
        · exact le_trans (le_abs_self _) nx
        · exact le_trans (le_abs_self _) ny)
      refine ⟨v, h1, ?_⟩
      rw [h2, hkey]
      simp [hi, hN]
    · have hN' : ¬ (x.N : Int) = y.N := by exact_mod_cast hN
      rw [if_pos (by simp [hN'])]
      refine ⟨_, Rational.gt_int nx ny, ?_⟩
      rw [hkey]
      have : ¬ y.N = x.N := fun h => hN h.symm
      simp [hi, this]
  · rw [if_pos hi]
    refine ⟨_, rfl, ?_⟩
    rw [hkey]
    have : ¬ y.i = x.i := fun h => hi h.symm
    simp [this]

end

/-- from a term back. -/
def back (t : Term) : RT := ⟨t.coe.index, t.coe.rad.num.toNat, t.coe.coe.num⟩
theorem back_term (t : RT) : back t.term = t := rfl

end RT

/-- `std::sort` returns where the comparator meets its requirements. -/
def SortReturns (env : FEnv) : Prop := ∀ p, StrictWeak (Term.before env.toEnv) p → ∃ q, env.sort p = .ok q

/-- normalising a sum of roots. -/
theorem RT.normalize_ok {env : FEnv} {B I R : Nat} (hg : env.toEnv.Good B) (hR : R ≤ B) (hs : SortContract env) (hr : SortReturns env)
    {P : List RT → Prop} (hc : RT.Class env.M I R P) {l : List RT} (h : P l) :
    ∃ l' : List RT, Poly.normalize env (l.map RT.term) = .ok (l'.map RT.term) ∧ P l' ∧
      RT.sum l' = RT.sum l ∧ (l ≠ [] → l' ≠ []) ∧ l'.length ≤ l.length ∧ (RT.nz l').Pairwise fun x y => y.grp < x.grp := by
  have am : ∀ t ∈ l, |t.a| ≤ env.M := fun t ht => le_trans (RT.l1_mem ht) (hc.fits h)
  have hcmp : ∀ a ∈ l.map RT.term, ∀ b ∈ l.map RT.term, ∃ v, Term.before env.toEnv a b = .ok v ∧ (v = true ↔ b.key < a.key) := by
    intro a ha b hb
    obtain ⟨x, hx, rfl⟩ := List.mem_map.1 ha
    obtain ⟨y, hy, rfl⟩ := List.mem_map.1 hb
    exact RT.before_ok hg hR (hc.ok h x hx) (hc.ok h y hy) (hc.cmp h x hx) (hc.cmp h y hy) (am x hx) (am y hy)
  obtain ⟨q, hq⟩ := hr _ (strictWeak_of_key hcmp)
  obtain ⟨hp, hsrt⟩ := hs.sorted hq hcmp
  have hq' : q = (q.map RT.back).map RT.term := by
    rw [List.map_map]
    conv_lhs => rw [← List.map_id q]
    refine List.map_congr_left fun t ht => ?_
    obtain ⟨x, hx, rfl⟩ := List.mem_map.1 (hp.subset ht)
    rfl
  have hp' : (q.map RT.back).Perm l := by
    have := hp.map RT.back
    rwa [List.map_map, show (RT.back ∘ RT.term) = id from rfl, List.map_id] at this
  generalize q.map RT.back = m at hq' hp'
  subst hq'
  have hm : P m := hc.perm hp'.symm h
  have e2 : RT.sum m = RT.sum l := (hp'.map _).sum_eq
  have hdec : m.Pairwise fun x y => y.grp ≤ x.grp := by
    refine List.Pairwise.imp ?_ (List.pairwise_map.1 hsrt)
    intro x y hxy
    unfold Term.key at hxy
    have : y.term.group ≤ x.term.group := by
      rcases Prod.Lex.toLex_le_toLex.1 hxy with h | h
      · exact h.le
      · exact h.1.le
    have vx : x.term.coe.rad.val = x.N := by show Rational.val ⟨x.N, 1⟩ = _; simp [Rational.val]
    have vy : y.term.coe.rad.val = y.N := by show Rational.val ⟨y.N, 1⟩ = _; simp [Rational.val]
    unfold Term.group at this
    rw [vx, vy] at this
    rcases Prod.Lex.toLex_le_toLex.1 this with h | h
    · exact absurd h (lt_irrefl _)
    · have h := Prod.Lex.toLex_le_toLex.1 h.2
      unfold RT.grp
      rw [Prod.Lex.toLex_le_toLex]
      rcases h with h | h
      · exact Or.inl h
      · exact Or.inr ⟨h.1, by
          have h2 : (y.N : ℚ) ≤ x.N := h.2
          show y.N ≤ x.N
          exact_mod_cast h2⟩
  refine ⟨RT.merge m, ?_, hc.merge hm, by rw [RT.merge_sum, e2], fun h0 => RT.merge_ne fun h1 => h0 ?_,
    by rw [← hp'.length_eq]; exact RT.merge_length m, ?_⟩
  · unfold Poly.normalize
    rw [hq, Res.bind_ok]
    exact RT.mergeAdj_ok hg hR (hc.ok hm) (hc.fits hm)
  · rw [h1] at hp'
    exact List.Perm.nil_eq hp' |>.symm
  · refine (RT.merge_dec ?_).1
    rintro a rest rfl
    obtain ⟨h1, h2⟩ := List.pairwise_cons.1 hdec
    exact ⟨h2, Or.inr h1⟩

end Symxx.Sym

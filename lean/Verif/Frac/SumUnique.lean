import Verif.Frac.SurdSum
import Verif.Num.RootIndep
/-!
# A sum of different roots has one form
-/
namespace Symxx.Sym
open Symxx.Num
namespace RT

/-- the root of a group. -/
noncomputable def root (g : ℕ ×ₗ ℕ) : ℝ := ((ofLex g).2 : ℝ) ^ ((1 : ℝ) / (ofLex g).1)

/-- the coefficient of a group. -/
def cf (l : List RT) (g : ℕ ×ₗ ℕ) : Int := (l.map fun t => if t.grp = g then t.a else 0).sum

theorem cf_cons (t : RT) (l : List RT) (g) : cf (t :: l) g = (if t.grp = g then t.a else 0) + cf l g := by simp [cf]

theorem val_root (t : RT) : t.val = t.a * root t.grp := rfl

theorem sum_cf {s : Finset (ℕ ×ₗ ℕ)} : ∀ {l : List RT}, (∀ t ∈ l, t.grp ∈ s) → sum l = ∑ g ∈ s, (cf l g : ℝ) * root g
  | [], _ => by simp [sum, cf]
  | t :: l, h => by
    have e : ∀ g, (cf (t :: l) g : ℝ) * root g = (if t.grp = g then (t.a : ℝ) * root g else 0) + (cf l g : ℝ) * root g := by
      intro g
      rw [cf_cons]
      split <;> push_cast <;> ring
    simp only [e]
    rw [Finset.sum_add_distrib, ← sum_cf (fun u hu => h u (List.mem_cons_of_mem _ hu)), Finset.sum_ite_eq, if_pos (h t (by simp)), sum_cons,
      val_root]

theorem cf_notMem {l : List RT} {g} (h : ∀ t ∈ l, t.grp ≠ g) : cf l g = 0 := by
  induction l with
  | nil => rfl
  | cons t l ih => rw [cf_cons, if_neg (h t (by simp)), ih fun u hu => h u (List.mem_cons_of_mem _ hu), add_zero]

theorem cf_mem {l : List RT} (h : l.Pairwise fun x y => y.grp < x.grp) {t : RT} (ht : t ∈ l) : cf l t.grp = t.a := by
  induction l with
  | nil => cases ht
  | cons u l ih =>
    obtain ⟨h1, h2⟩ := List.pairwise_cons.1 h
    rw [cf_cons]
    rcases List.mem_cons.1 ht with rfl | ht
    · rw [if_pos rfl, cf_notMem fun v hv => (h1 v hv).ne, add_zero]
    · rw [if_neg (h1 t ht).ne', ih h2 ht, zero_add]

theorem root_pos {t : RT} (h : Simplest t.N t.i) : 0 < root t.grp :=
  Real.rpow_pos_of_pos (by show (0 : ℝ) < t.N; exact_mod_cast h.1) _

/-- different roots in simplest form are no rational multiples of each other. -/
theorem root_irr {x y : RT} (hx : Simplest x.N x.i) (hy : Simplest y.N y.i) (q : ℚ) (h : root x.grp = q * root y.grp) : x.grp = y.grp := by
  have q0 : q ≠ 0 := by
    rintro rfl
    have := root_pos hx
    rw [h] at this
    simp at this
  have c1 : Num.Real.Canon ⟨x.i, ⟨x.N, 1⟩, ⟨1, 1⟩⟩ := ⟨x.N, rfl, hx, one_ne_zero, fun h => absurd h one_ne_zero⟩
  have c2 : Num.Real.Canon ⟨y.i, ⟨y.N, 1⟩, ⟨q.num, q.den⟩⟩ := ⟨y.N, rfl, hy, by show (q.den : Int) ≠ 0; exact_mod_cast q.den_nz, fun h => absurd (Rat.num_eq_zero.1 h) q0⟩
  have hval : ∀ (a b : Int) (i N : Nat), Num.Real.val ⟨i, ⟨N, 1⟩, ⟨a, b⟩⟩ = (a : ℝ) / b * (N : ℝ) ^ ((1 : ℝ) / i) := by
    intro a b i N
    have v := Num.Real.val_mk i N 1 ⟨a, b⟩
    simp only [Nat.cast_one, div_one] at v
    rw [v]
    simp [Rational.val]
  have hq : (q : ℝ) = (q.num : ℝ) / ((q.den : ℤ) : ℝ) := by
    rw [Rat.cast_def]; simp
  have e : Num.Real.val ⟨x.i, ⟨x.N, 1⟩, ⟨1, 1⟩⟩ = Num.Real.val ⟨y.i, ⟨y.N, 1⟩, ⟨q.num, q.den⟩⟩ := by
    rw [hval, hval, ← hq]
    have h : (x.N : ℝ) ^ ((1 : ℝ) / x.i) = q * (y.N : ℝ) ^ ((1 : ℝ) / y.i) := h
    rw [← h]; simp
  obtain ⟨-, u2, u3⟩ := (Num.Real.canon_unique c1 c2).1 e
  have eN : (x.N : Int) = y.N := congrArg Rational.num u2
  have eN : x.N = y.N := by exact_mod_cast eN
  have u3 : x.i = y.i := u3
  unfold grp
  rw [eN, u3]

theorem sum_nz (l : List RT) : sum (nz l) = sum l := by
  induction l with
  | nil => rfl
  | cons t l ih =>
    by_cases h : t.a = 0
    · rw [nz_cons_zero h, ih, sum_cons, val_root, h]; simp
    · rw [nz_cons h, sum_cons, sum_cons, ih]

theorem ext_grp {t u : RT} (h : t.grp = u.grp) (ha : t.a = u.a) : t = u := by
  have := congrArg ofLex h
  have e1 : t.i = u.i := congrArg Prod.fst this
  have e2 : t.N = u.N := congrArg Prod.snd this
  cases t; cases u
  simp_all

/-- sums of different roots with the same value are the same. -/
theorem nz_unique {l l' : List RT} (h : ∀ t ∈ l, Simplest t.N t.i) (h' : ∀ t ∈ l', Simplest t.N t.i)
    (hd : (nz l).Pairwise fun x y => y.grp < x.grp) (hd' : (nz l').Pairwise fun x y => y.grp < x.grp) (hv : sum l = sum l') :
    nz l = nz l' := by
  classical
  let s : Finset (ℕ ×ₗ ℕ) := ((nz l ++ nz l').map grp).toFinset
  have hs1 : ∀ t ∈ nz l, t.grp ∈ s := fun t ht => by simp only [s, List.mem_toFinset, List.mem_map]; exact ⟨t, by simp [ht], rfl⟩
  have hs2 : ∀ t ∈ nz l', t.grp ∈ s := fun t ht => by simp only [s, List.mem_toFinset, List.mem_map]; exact ⟨t, by simp [ht], rfl⟩
  have hs : ∀ g ∈ s, ∃ t : RT, t.grp = g ∧ Simplest t.N t.i := by
    intro g hg
    simp only [s, List.mem_toFinset, List.mem_map] at hg
    obtain ⟨t, ht, rfl⟩ := hg
    refine ⟨t, rfl, ?_⟩
    rcases List.mem_append.1 ht with ht | ht
    · exact h t (mem_nz.1 ht).1
    · exact h' t (mem_nz.1 ht).1
  have key : ∀ g ∈ s, ((cf (nz l) g - cf (nz l') g : Int) : ℚ) = 0 := by
    refine Num.roots_indep s root ?_ ?_ ?_ (fun g => ((cf (nz l) g - cf (nz l') g : Int) : ℚ)) ?_
    · intro g hg
      obtain ⟨t, rfl, ht⟩ := hs g hg
      exact root_pos ht
    · intro g hg
      obtain ⟨t, rfl, ht⟩ := hs g hg
      refine ⟨t.i, ht.2.1, t.N, ?_⟩
      show ((t.N : ℝ) ^ ((1 : ℝ) / t.i)) ^ t.i = _
      rw [← Real.rpow_natCast, ← Real.rpow_mul (by positivity), one_div, inv_mul_cancel₀ (by exact_mod_cast ht.2.1.ne'), Real.rpow_one]
      simp
    · intro g hg g' hg' hne
      obtain ⟨t, rfl, ht⟩ := hs g hg
      obtain ⟨u, rfl, hu⟩ := hs g' hg'
      rintro ⟨q, hq⟩
      exact hne (root_irr ht hu q hq)
    · have e1 := sum_cf hs1
      have e2 := sum_cf hs2
      rw [sum_nz] at e1 e2
      have : ∀ g, (((cf (nz l) g - cf (nz l') g : Int) : ℚ) : ℝ) * root g = (cf (nz l) g : ℝ) * root g - (cf (nz l') g : ℝ) * root g := by
        intro g; push_cast; ring
      simp only [this]
      rw [Finset.sum_sub_distrib, ← e1, ← e2, hv, sub_self]
  have key : ∀ g ∈ s, cf (nz l) g = cf (nz l') g := by
    intro g hg
    have := key g hg
    have : cf (nz l) g - cf (nz l') g = 0 := by exact_mod_cast this
    omega
  have sub : ∀ {l l' : List RT}, (nz l).Pairwise (fun x y => y.grp < x.grp) → (nz l').Pairwise (fun x y => y.grp < x.grp) →
      (∀ t ∈ nz l, cf (nz l) t.grp = cf (nz l') t.grp) → ∀ t ∈ nz l, t ∈ nz l' := by
    intro l l' hd hd' hk t ht
    have e := hk t ht
    rw [cf_mem hd ht] at e
    by_contra hc
    by_cases hg : ∃ u ∈ nz l', u.grp = t.grp
    · obtain ⟨u, hu, hu2⟩ := hg
      rw [← hu2, cf_mem hd' hu] at e
      exact hc (by rw [ext_grp hu2.symm e]; exact hu)
    · rw [cf_notMem fun u hu h => hg ⟨u, hu, h⟩] at e
      exact (mem_nz.1 ht).2 e
  have nd : ∀ {m : List RT}, m.Pairwise (fun x y => y.grp < x.grp) → m.Nodup := fun h =>
    h.imp fun {a b} hab e => by subst e; exact lt_irrefl _ hab
  have perm : (nz l).Perm (nz l') := (List.perm_ext_iff_of_nodup (nd hd) (nd hd')).2 fun t =>
    ⟨sub hd hd' (fun t ht => key _ (hs1 t ht)) t, sub hd' hd (fun t ht => (key _ (hs2 t ht)).symm) t⟩
  exact List.Perm.eq_of_pairwise (fun a b _ _ h1 h2 => absurd (lt_trans h1 h2) (lt_irrefl _)) hd hd' perm

end RT
end Symxx.Sym

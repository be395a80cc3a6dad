import Verif.Frac.Model
import Mathlib.Data.List.Nodup
import Mathlib.Algebra.Order.BigOperators.Group.List
/-!
# `solve_variable_eq`: the compositions of `n` into `m` parts
-/
namespace Symxx.Sym

/-- the tuples to be enumerated. -/
def IsSol (n : Int) (m : Nat) (v : List Int) : Prop := v.length = m ∧ (∀ x ∈ v, 0 ≤ x) ∧ v.sum = n

theorem mem_helper {n : Int} {p : Int × Int} : p ∈ solveHelper n ↔ 0 ≤ p.1 ∧ 0 ≤ p.2 ∧ p.1 + p.2 = n := by
  unfold solveHelper
  rw [List.mem_map]
  constructor
  · rintro ⟨i, hi, rfl⟩
    rw [List.mem_range] at hi
    simp only
    omega
  · rintro ⟨h1, h2, h3⟩
    refine ⟨p.1.toNat, List.mem_range.2 (by omega), ?_⟩
    ext <;> simp only <;> omega

theorem helper_nodup (n : Int) : ((solveHelper n).map (·.1)).Nodup := by
  unfold solveHelper
  rw [List.map_map]
  exact List.Nodup.map (fun a b h => by have : (a : Int) = b := h; exact_mod_cast this) List.nodup_range

theorem solveLoop_spec {rec : Int → Res (List (List Int))} {m : Nat}
    (h : ∀ n : Int, 0 ≤ n → ∃ l, rec n = .ok l ∧ l.Nodup ∧ ∀ v, v ∈ l ↔ IsSol n m v)
    (ps : List (Int × Int)) (hp : ∀ p ∈ ps, 0 ≤ p.1 ∧ 0 ≤ p.2) (hn : (ps.map (·.1)).Nodup) :
    ∃ l, solveLoop rec ps = .ok l ∧ l.Nodup ∧ ∀ v, v ∈ l ↔ ∃ p ∈ ps, ∃ w, v = p.1 :: w ∧ IsSol p.2 m w := by
  induction ps with
  | nil => exact ⟨[], rfl, List.nodup_nil, by simp⟩
  | cons p ps ih =>
    obtain ⟨hp1, hp2⟩ := hp p List.mem_cons_self
    obtain ⟨l, e, nd, hl⟩ := h p.2 hp2
    rw [List.map_cons, List.nodup_cons] at hn
    obtain ⟨l', e', nd', hl'⟩ := ih (fun q hq => hp q (List.mem_cons_of_mem _ hq)) hn.2
    refine ⟨l.map (p.1 :: ·) ++ l', by unfold solveLoop; rw [e, e']; rfl, ?_, ?_⟩
    · rw [List.nodup_append]
      refine ⟨nd.map (fun a b h => by simpa using h), nd', ?_⟩
      rintro a ha b hb rfl
      obtain ⟨w, -, rfl⟩ := List.mem_map.1 ha
      obtain ⟨q, hq, w', hw, -⟩ := (hl' _).1 hb
      injection hw with hw _
      exact hn.1 (List.mem_map.2 ⟨q, hq, hw.symm⟩)
    · intro v
      rw [List.mem_append, hl', List.mem_map]
      constructor
      · rintro (⟨w, hw, rfl⟩ | ⟨q, hq, h⟩)
        · exact ⟨p, List.mem_cons_self, w, rfl, (hl w).1 hw⟩
        · exact ⟨q, List.mem_cons_of_mem _ hq, h⟩
      · rintro ⟨q, hq, w, rfl, hw⟩
        rcases List.mem_cons.1 hq with rfl | hq
        · exact Or.inl ⟨w, (hl w).2 hw, rfl⟩
        · exact Or.inr ⟨q, hq, w, rfl, hw⟩

/-- every composition, each once. -/
theorem solveEq_spec (m : Nat) (n : Int) (hn : 0 ≤ n) (hm : 2 ≤ m) :
    ∃ l, solveEq m n = .ok l ∧ l.Nodup ∧ ∀ v, v ∈ l ↔ IsSol n m v := by
  induction m generalizing n with
  | zero => omega
  | succ m ih =>
    match m, hm, ih with
    | 1, _, _ =>
      refine ⟨_, rfl, ?_, ?_⟩
      · have := helper_nodup n
        refine List.Nodup.map_on ?_ this.of_map
        intro a ha b hb h
        injection h with h1 h2
        injection h2 with h2 _
        exact Prod.ext h1 h2
      · intro v
        rw [List.mem_map]
        constructor
        · rintro ⟨p, hp, rfl⟩
          obtain ⟨h1, h2, h3⟩ := mem_helper.1 hp
          refine ⟨rfl, ?_, by simpa using h3⟩
          intro x hx
          simp only [List.mem_cons, List.not_mem_nil, or_false] at hx
          rcases hx with rfl | rfl <;> assumption
        · rintro ⟨h1, h2, h3⟩
          match v, h1 with
          | [a, b], _ =>
            exact ⟨(a, b), mem_helper.2 ⟨h2 a (by simp), h2 b (by simp), by simpa using h3⟩, rfl⟩
    | m + 2, _, ih =>
      obtain ⟨l, e, nd, hl⟩ := solveLoop_spec (m := m + 2) (rec := solveEq (m + 2))
        (fun k hk => ih k hk (by omega)) (solveHelper n)
        (fun p hp => ⟨(mem_helper.1 hp).1, (mem_helper.1 hp).2.1⟩) (helper_nodup n)
      refine ⟨l, e, nd, fun v => ?_⟩
      rw [hl]
      constructor
      · rintro ⟨p, hp, w, rfl, h1, h2, h3⟩
        obtain ⟨k1, k2, k3⟩ := mem_helper.1 hp
        refine ⟨by simp [h1], ?_, by rw [List.sum_cons, h3]; exact k3⟩
        intro x hx
        rcases List.mem_cons.1 hx with rfl | hx
        · exact k1
        · exact h2 x hx
      · rintro ⟨h1, h2, h3⟩
        match v, h1 with
        | a :: w, h1 =>
          have hw : ∀ x ∈ w, 0 ≤ x := fun x hx => h2 x (List.mem_cons_of_mem _ hx)
          have hs : 0 ≤ w.sum := List.sum_nonneg hw
          refine ⟨(a, w.sum), mem_helper.2 ⟨h2 a List.mem_cons_self, hs, by simpa using h3⟩, w, rfl, ?_, hw, rfl⟩
          simpa using h1

/-- a negative total has no solutions, and none is listed. -/
theorem solveEq_neg (m : Nat) (n : Int) (hn : n < 0) : solveEq m n = .ok [] := by
  have h : solveHelper n = [] := by
    unfold solveHelper
    rw [show (n + 1).toNat = 0 by omega]; rfl
  match m with
  | 0 => simp [solveEq, hn]
  | 1 => simp [solveEq, hn]
  | 2 => simp [solveEq, h]
  | m + 3 => simp [solveEq, h, solveLoop]

end Symxx.Sym

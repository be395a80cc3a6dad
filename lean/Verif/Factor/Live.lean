import Verif.Factor.Rho
import Mathlib.Data.Nat.ChineseRemainder
import Mathlib.Algebra.IsPrimePow
/-!
# `factorize` can always finish

For every composite number there is a value of the random constant `c` for which the rho round finds a divisor.
-/
namespace Symxx.Factor

/-- the inner loop keeps a common factor with `m`, and collects one from every difference it passes. -/
theorem rhoInner_gcd (M m c : Int) (hm : 1 < m) (hM : Fits M m) (hc : 0 ≤ c) (i j : Nat) (p : Int)
    (hp : 0 < p) (hpm : p < m) :
    ∃ j' p', rhoInner M m c i (rhoSeq m c j) (rhoSeq m c (2 * j)) p =
        .ok (rhoSeq m c j', rhoSeq m c (2 * j'), p') ∧
      j ≤ j' ∧ (0 < i → j < j') ∧ 0 < p' ∧ p' < m ∧
      (1 < Int.gcd p m → 1 < Int.gcd p' m) ∧
      (∀ k, j < k → k ≤ j' → rhoSeq m c k ≠ rhoSeq m c (2 * k) →
        1 < Int.gcd (rhoSeq m c k - rhoSeq m c (2 * k)) m → 1 < Int.gcd p' m) := by
  have hm0 : 0 < m := by omega
  induction i generalizing j p with
  | zero => exact ⟨j, p, rfl, le_rfl, by omega, hp, hpm, id, by omega⟩
  | succ i ih =>
    unfold rhoInner
    have e2 : 2 * (j + 1) = 2 * j + 1 + 1 := by ring
    rw [rhoF_seq M m c hm0 hM hc, rhoF_seq M m c hm0 hM hc]
    simp only [Res.bind_ok]
    rw [rhoF_seq M m c hm0 hM hc]
    simp only [Res.bind_ok]
    rw [← e2]
    by_cases ht : rhoSeq m c (j + 1) = rhoSeq m c (2 * (j + 1))
    · rw [if_pos ht]
      refine ⟨j + 1, p, rfl, by omega, by omega, hp, hpm, id, fun k h1 h2 h3 => ?_⟩
      have : k = j + 1 := by omega
      subst this
      exact absurd ht h3
    · rw [if_neg ht]
      obtain ⟨a1, a2⟩ := rhoSeq_range m c hm0 (j + 1)
      obtain ⟨b1, b2⟩ := rhoSeq_range m c hm0 (2 * (j + 1))
      have h2 := hM.2
      rw [chk_ok ⟨by omega, by omega⟩]
      simp only [Res.bind_ok]
      rw [mulmod_spec M p _ m hm0 h2 hp.le (Int.natCast_nonneg _) (by omega)]
      simp only [Res.bind_ok]
      set D := rhoSeq m c (j + 1) - rhoSeq m c (2 * (j + 1)) with hD
      have hD0 : D ≠ 0 := by omega
      split
      · rename_i hq
        refine ⟨j + 1, p, rfl, by omega, by omega, hp, hpm, id, fun k h1 h2 _ _ => ?_⟩
        by_contra hg
        have hg1 : Int.gcd p m = 1 := by
          have : 0 < Int.gcd p m := Int.gcd_pos_of_ne_zero_left _ hp.ne'
          omega
        have hdvd : m ∣ p * (D.natAbs : Int) := Int.dvd_of_emod_eq_zero hq
        have h3 : m ∣ (D.natAbs : Int) := Int.dvd_of_dvd_mul_right_of_gcd_one hdvd (by rw [Int.gcd_comm]; exact hg1)
        have h4 := Int.le_of_dvd (by omega) h3
        omega
      · rename_i hq
        have q1 := Int.emod_nonneg (p * (D.natAbs : Int)) hm0.ne'
        have q2 := Int.emod_lt_of_pos (p * (D.natAbs : Int)) hm0
        obtain ⟨j', p', h3, i1, -, i2, i3, h4, h5⟩ := ih (j + 1) _ (by omega) q2
        have key : ∀ x : Int, x ∣ p * (D.natAbs : Int) → 1 < Int.gcd x m → 1 < Int.gcd p' m := by
          intro x hx hg
          apply h4
          have hd1 : ((Int.gcd x m : Nat) : Int) ∣ p * (D.natAbs : Int) % m := by
            rw [Int.emod_def]
            exact dvd_sub ((Int.gcd_dvd_left x m).trans hx) (Dvd.dvd.mul_right (Int.gcd_dvd_right x m) _)
          have hd2 : Int.gcd x m ∣ Int.gcd (p * (D.natAbs : Int) % m) m :=
            Int.dvd_gcd hd1 (Int.gcd_dvd_right _ _)
          have hpos : 0 < Int.gcd (p * (D.natAbs : Int) % m) m := Int.gcd_pos_of_ne_zero_right _ hm0.ne'
          have := Nat.le_of_dvd hpos hd2
          omega
        refine ⟨j', p', h3, by omega, by omega, i2, i3, fun hg => key p ⟨_, rfl⟩ hg, fun k hk1 hk2 hk3 hk4 => ?_⟩
        rcases Nat.lt_or_ge (j + 1) k with h | h
        · exact h5 k h hk2 hk3 hk4
        · have : k = j + 1 := by omega
          subst this
          refine key D (Dvd.dvd.mul_left ?_ p) hk4
          exact Int.dvd_natAbs.2 (dvd_refl D)

theorem rhoOuter_finds (M m c : Int) (hm : 1 < m) (hM : Fits M m) (hc : 0 ≤ c) (k : Nat)
    (hk : ∀ l, 0 < l → l ≤ k → rhoSeq m c l ≠ rhoSeq m c (2 * l))
    (hg : 1 < Int.gcd (rhoSeq m c k - rhoSeq m c (2 * k)) m) (n j : Nat) (hj : j < k) (p : Int)
    (hp : 0 < p) (hpm : p < m) : rhoOuter M m c n (rhoSeq m c j) (rhoSeq m c (2 * j)) p ≠ .ok none := by
  induction n generalizing j p with
  | zero => simp [rhoOuter]
  | succ n ih =>
    unfold rhoOuter
    obtain ⟨j', p', h1, h2, h3, h4, h5, -, h6⟩ := rhoInner_gcd M m c hm hM hc 128 j p hp hpm
    rw [h1]
    simp only [Res.bind_ok]
    by_cases hd : ((Int.gcd p' m : Nat) : Int) > 1
    · rw [if_pos hd]; simp
    · rw [if_neg hd]
      have hlt : j' < k := by
        by_contra hge
        have := h6 k hj (by omega) (hk k (by omega) le_rfl) hg
        omega
      rw [if_pos (hk j' (by omega) hlt.le)]
      exact ih j' hlt p' h4 h5

/-- the constant `c` leads to a divisor. -/
def GoodC (m c : Int) : Prop :=
  ∃ k, 0 < k ∧ (∀ l, 0 < l → l ≤ k → rhoSeq m c l ≠ rhoSeq m c (2 * l)) ∧
    1 < Int.gcd (rhoSeq m c k - rhoSeq m c (2 * k)) m

theorem rhoRound_finds (M m c : Int) (hm : 1 < m) (hM : Fits M m) (hc : 0 ≤ c) (hg : GoodC m c) :
    ∃ d, rhoOuter M m c (m.natAbs + 1) 0 0 1 = .ok (some d) ∧ 1 < d ∧ d < m ∧ d ∣ m := by
  obtain ⟨k, h1, h2, h3⟩ := hg
  rcases rhoRound M m c hm hM hc with h | h
  · exact absurd h (rhoOuter_finds M m c hm hM hc k h2 h3 (m.natAbs + 1) 0 h1 1 (by omega) hm)
  · exact h

/-! ### every composite has a good constant -/

theorem good_of_dvd {m c p : Nat} (hp : 1 < p) (hpm : p ∣ m) (hpc : p ∣ c) (hcm : c < m) (hs : ¬ m ∣ c * c) :
    GoodC m c := by
  have hm : (0 : Int) < m := by omega
  have e1 : rhoSeq m c 1 = (c : Int) := by
    simp only [rhoSeq]
    rw [Int.emod_eq_of_lt] <;> omega
  have e2 : rhoSeq m c 2 = ((c : Int) * c + c) % m := by
    rw [show (2 : Nat) = 1 + 1 from rfl, rhoSeq, e1]
  have hne : rhoSeq m c 1 ≠ rhoSeq m c (2 * 1) := by
    rw [mul_one, e1, e2]
    intro h
    have h1 : (c : Int) % m = ((c : Int) * c + c) % m := by rw [← h]; rw [Int.emod_eq_of_lt] <;> omega
    have h3 : (m : Int) ∣ (c : Int) * c + c - c := Int.ModEq.dvd (show (c : Int) ≡ (c : Int) * c + c [ZMOD m] from h1)
    rw [add_sub_cancel_right] at h3
    exact hs (by exact_mod_cast h3)
  refine ⟨1, by omega, fun l h1 h2 => ?_, ?_⟩
  · have : l = 1 := by omega
    subst this
    exact hne
  · have hd : (p : Int) ∣ rhoSeq m c 1 - rhoSeq m c (2 * 1) := by
      rw [mul_one, e1, e2, Int.emod_def]
      have a : (p : Int) ∣ c := by exact_mod_cast hpc
      have b : (p : Int) ∣ m := by exact_mod_cast hpm
      exact dvd_sub a (dvd_sub (dvd_add (a.mul_right _) a) (b.mul_right _))
    have hd2 : p ∣ Int.gcd (rhoSeq m c 1 - rhoSeq m c (2 * 1)) m :=
      Int.dvd_gcd hd (by exact_mod_cast hpm)
    have hpos : 0 < Int.gcd (rhoSeq m c 1 - rhoSeq m c (2 * 1)) m := Int.gcd_pos_of_ne_zero_right _ hm.ne'
    have := Nat.le_of_dvd hpos hd2
    omega

theorem good_25 : GoodC 25 2 :=
  ⟨2, by omega, fun l h1 h2 => by
    have : l = 1 ∨ l = 2 := by omega
    rcases this with rfl | rfl <;> decide, by decide⟩

theorem good_sq {p : Nat} (hp : p.Prime) (h2 : p ≠ 2) (h5 : p ≠ 5) : GoodC ((p * p : Nat) : Int) ((p - 2 : Nat) : Int) := by
  have hp3 : 3 ≤ p := by have := hp.two_le; omega
  have hm : ((p * p : Nat) : Int) ≠ 0 := by positivity
  set m : Int := ((p * p : Nat) : Int) with hmdef
  have hc : ((p - 2 : Nat) : Int) = (p : Int) - 2 := by omega
  rw [hc]
  have hmm : m = (p : Int) * p := by rw [hmdef]; push_cast; rfl
  have step : ∀ n (x : Int), rhoSeq m ((p : Int) - 2) n ≡ x [ZMOD m] →
      rhoSeq m ((p : Int) - 2) (n + 1) ≡ x * x + ((p : Int) - 2) [ZMOD m] := by
    intro n x h
    exact (Int.mod_modEq _ _).trans ((h.mul h).add_right _)
  have red : ∀ a b k : Int, a - b = m * k → a ≡ b [ZMOD m] := fun a b k h => by
    exact (Int.modEq_iff_dvd.2 ⟨k, h⟩).symm
  have s1 : rhoSeq m ((p : Int) - 2) 1 ≡ (p : Int) - 2 [ZMOD m] :=
    (step 0 0 (Int.ModEq.refl _)).trans (by simp)
  have s2 : rhoSeq m ((p : Int) - 2) 2 ≡ 2 - 3 * p [ZMOD m] :=
    (step 1 _ s1).trans (red _ _ 1 (by rw [hmm]; ring))
  have s3 : rhoSeq m ((p : Int) - 2) 3 ≡ 2 - 11 * p [ZMOD m] :=
    (step 2 _ s2).trans (red _ _ 9 (by rw [hmm]; ring))
  have s4 : rhoSeq m ((p : Int) - 2) 4 ≡ 2 - 43 * p [ZMOD m] :=
    (step 3 _ s3).trans (red _ _ 121 (by rw [hmm]; ring))
  have hpi : Prime (p : Int) := Nat.prime_iff_prime_int.1 hp
  have small : ∀ k : Nat, (p : Int) ∣ (k : Int) → p ∣ k := fun k h => by exact_mod_cast h
  refine ⟨2, by omega, fun l l1 l2 => ?_, ?_⟩
  · have : l = 1 ∨ l = 2 := by omega
    rcases this with rfl | rfl
    · intro h
      rw [mul_one] at h
      have h1 : (p : Int) - 2 ≡ 2 - 3 * p [ZMOD m] := s1.symm.trans (h ▸ s2)
      have h3 : (p : Int) ∣ 2 - 3 * p - (p - 2) := (Dvd.intro _ hmm.symm).trans h1.dvd
      have h4 : (p : Int) ∣ ((4 : Nat) : Int) := by
        have : ((4 : Nat) : Int) = (2 - 3 * p - (p - 2)) + p * 4 := by push_cast; ring
        rw [this]
        exact dvd_add h3 ⟨4, rfl⟩
      have h5 := small 4 h4
      rw [show 4 = 2 * 2 from rfl, hp.dvd_mul, or_self] at h5
      exact h2 ((Nat.prime_dvd_prime_iff_eq hp Nat.prime_two).1 h5)
    · intro h
      have h1 : (2 : Int) - 43 * p ≡ 2 - 3 * p [ZMOD m] := s4.symm.trans (h ▸ s2)
      have h3 := h1.dvd
      rw [hmm] at h3
      have h4 : (p : Int) * p ∣ p * ((40 : Nat) : Int) := by
        have : (p : Int) * ((40 : Nat) : Int) = 2 - 3 * p - (2 - 43 * p) := by push_cast; ring
        rw [this]; exact h3
      have h6 := small 40 (Int.dvd_of_mul_dvd_mul_left (by omega) h4)
      rw [show 40 = 2 * (2 * (2 * 5)) from rfl, hp.dvd_mul, hp.dvd_mul, hp.dvd_mul] at h6
      rcases h6 with h6 | h6 | h6 | h6
      · exact h2 ((Nat.prime_dvd_prime_iff_eq hp Nat.prime_two).1 h6)
      · exact h2 ((Nat.prime_dvd_prime_iff_eq hp Nat.prime_two).1 h6)
      · exact h2 ((Nat.prime_dvd_prime_iff_eq hp Nat.prime_two).1 h6)
      · exact h5 ((Nat.prime_dvd_prime_iff_eq hp Nat.prime_five).1 h6)
  · have hdm : (p : Int) ∣ m := Dvd.intro _ hmm.symm
    have hd : (p : Int) ∣ rhoSeq m ((p : Int) - 2) 2 - rhoSeq m ((p : Int) - 2) (2 * 2) := by
      have h1 := hdm.trans (s2.dvd)
      have h2 := hdm.trans (s4.dvd)
      have : rhoSeq m ((p : Int) - 2) 2 - rhoSeq m ((p : Int) - 2) (2 * 2) =
          (2 - 43 * p - rhoSeq m ((p : Int) - 2) 4) - (2 - 3 * p - rhoSeq m ((p : Int) - 2) 2) + p * 40 := by
        rw [show 2 * 2 = 4 from rfl]; ring
      rw [this]
      exact dvd_add (dvd_sub h2 h1) ⟨40, rfl⟩
    have hd2 : p ∣ Int.gcd (rhoSeq m ((p : Int) - 2) 2 - rhoSeq m ((p : Int) - 2) (2 * 2)) m := Int.dvd_gcd hd hdm
    have hpos := Int.gcd_pos_of_ne_zero_right (rhoSeq m ((p : Int) - 2) 2 - rhoSeq m ((p : Int) - 2) (2 * 2)) hm
    have := Nat.le_of_dvd hpos hd2
    omega

theorem exists_good {m : Nat} (h4 : 4 < m) (hnp : ¬ m.Prime) : ∃ c : Nat, 1 ≤ c ∧ c ≤ m - 2 ∧ GoodC m c := by
  have hp := Nat.minFac_prime (n := m) (by omega)
  have hpm := Nat.minFac_dvd m
  set p := m.minFac
  obtain ⟨a, w, hw, hm⟩ := Nat.exists_eq_pow_mul_and_not_dvd (n := m) (by omega) p hp.ne_one
  have ha : a ≠ 0 := by
    rintro rfl
    rw [pow_zero, one_mul] at hm
    exact hw (hm ▸ hpm)
  have last : ∀ c, p ∣ c → c < m → c ≤ m - 2 := by
    intro c hc hlt
    by_contra hgt
    have : c + 1 = m := by omega
    have h1 : p ∣ 1 := (Nat.dvd_add_right hc).1 (by rw [this]; exact hpm)
    exact hp.one_lt.ne' (Nat.dvd_one.1 h1)
  by_cases hw1 : w = 1
  · subst hw1
    rw [mul_one] at hm
    have ha1 : a ≠ 1 := by rintro rfl; rw [pow_one] at hm; exact hnp (hm ▸ hp)
    by_cases ha2 : a = 2
    · subst ha2
      rw [pow_two] at hm
      have hp2 : p ≠ 2 := by
        intro h
        rw [h] at hm
        omega
      by_cases hp5 : p = 5
      · rw [hp5] at hm
        refine ⟨2, by omega, by omega, ?_⟩
        rw [hm]
        exact good_25
      · have hp3 : 3 ≤ p := by have := hp.two_le; omega
        refine ⟨p - 2, by omega, ?_, ?_⟩
        · have : p ≤ m := Nat.le_of_dvd (by omega) hpm
          omega
        · have := good_sq hp hp2 hp5
          rwa [← hm] at this
    · have hlt : p * p < m := by
        rw [hm]
        calc p * p = p ^ 2 := (pow_two p).symm
          _ < p ^ a := Nat.pow_lt_pow_right hp.one_lt (by omega)
      have hpl : p < m := lt_of_le_of_lt (Nat.le_mul_of_pos_left p hp.pos) hlt
      refine ⟨p, hp.one_lt.le, last p (dvd_refl p) hpl, good_of_dvd hp.one_lt hpm (dvd_refl p) hpl ?_⟩
      intro h
      have := Nat.le_of_dvd (Nat.mul_pos hp.pos hp.pos) h
      omega
  · have hw0 : 0 < w := by
      rcases Nat.eq_zero_or_pos w with rfl | h
      · rw [mul_zero] at hm; omega
      · exact h
    have hcop : (p ^ a).Coprime w := Nat.Coprime.pow_left a ((hp.coprime_iff_not_dvd).2 hw)
    have hc := Nat.chineseRemainder_lt_mul hcop 0 1 (pow_pos hp.pos a).ne' hw0.ne'
    set c' := (Nat.chineseRemainder hcop 0 1 : Nat) with hc'
    have d1 : c' ≡ 0 [MOD p ^ a] := (Nat.chineseRemainder hcop 0 1).2.1
    have d2 : c' ≡ 1 [MOD w] := (Nat.chineseRemainder hcop 0 1).2.2
    rw [← hm] at hc
    have hpc : p ∣ c' := (dvd_pow_self p ha).trans ((Nat.modEq_zero_iff_dvd).1 d1)
    have hone : ∀ x, x ≡ 1 [MOD w] → ¬ w ∣ x := by
      intro x hx hd
      have h1 := ((Nat.modEq_zero_iff_dvd).2 hd).symm.trans hx
      have h2 : 0 % w = 1 % w := h1
      rw [Nat.zero_mod, Nat.mod_eq_of_lt (by omega)] at h2
      omega
    refine ⟨c', ?_, last c' hpc hc, good_of_dvd hp.one_lt hpm hpc hc ?_⟩
    · by_contra h0
      have h0 : c' = 0 := by omega
      exact hone c' d2 (by rw [h0]; exact dvd_zero w)
    · intro h
      refine hone (c' * c') (d2.mul d2) (Dvd.dvd.trans ⟨p ^ a, ?_⟩ h)
      rw [hm, mul_comm]

/-! ### liveness -/

/-- a computation with random draws that can finish after every sequence of draws. -/
structure Live {α : Type} (f : List Nat → Res (α × List Nat)) : Prop where
  /-- draws that are not used are returned. -/
  ext : ∀ pre a rest l, f pre = .ok (a, rest) → f (pre ++ l) = .ok (a, rest ++ l)
  /-- after every sequence of draws it can be continued so that it returns. -/
  live : ∀ pre, ∃ l a rest, f (pre ++ l) = .ok (a, rest)

theorem Live.pure {α : Type} (a : α) : Live (fun draws => .ok (a, draws)) where
  ext := by
    intro pre b rest l h
    simp only [Res.ok.injEq, Prod.mk.injEq] at h ⊢
    exact ⟨h.1, by rw [h.2]⟩
  live pre := ⟨[], a, _, rfl⟩

theorem Live.bind {α β : Type} {f : List Nat → Res (α × List Nat)} {g : α × List Nat → Res (β × List Nat)} (hf : Live f)
    {P : α → Prop} (hP : ∀ pre a rest, f pre = .ok (a, rest) → P a) (hg : ∀ a, P a → Live (fun draws => g (a, draws))) :
    Live (fun draws => f draws >>= g) where
  ext := by
    intro pre b rest l h
    obtain ⟨⟨a, r⟩, h1, h2⟩ := Res.bind_eq_ok.1 h
    show f (pre ++ l) >>= _ = _
    rw [hf.ext _ _ _ l h1, Res.bind_ok]
    exact (hg a (hP _ _ _ h1)).ext _ _ _ l h2
  live := by
    intro pre
    obtain ⟨l, a, rest, h⟩ := hf.live pre
    obtain ⟨l', b, rest', h'⟩ := (hg a (hP _ _ _ h)).live rest
    refine ⟨l ++ l', b, rest', ?_⟩
    show f (pre ++ (l ++ l')) >>= _ = _
    rw [← List.append_assoc, hf.ext _ _ _ l' h, Res.bind_ok]; exact h'

theorem rhoSearch_ext (M m : Int) (pre : List Nat) (d : Int) (rest l : List Nat) (h : rhoSearch M m pre = .ok (d, rest)) :
    rhoSearch M m (pre ++ l) = .ok (d, rest ++ l) := by
  induction pre with
  | nil => simp [rhoSearch] at h
  | cons r pre ih =>
    rw [List.cons_append]
    unfold rhoSearch at h ⊢
    obtain ⟨n2, h1, h⟩ := Res.bind_eq_ok.1 h
    obtain ⟨c, h2, h⟩ := Res.bind_eq_ok.1 h
    obtain ⟨o, h3, h⟩ := Res.bind_eq_ok.1 h
    rw [h1, Res.bind_ok, h2, Res.bind_ok, h3, Res.bind_ok]
    cases o with
    | some d' =>
      simp only [Res.ok.injEq, Prod.mk.injEq] at h ⊢
      exact ⟨h.1, by rw [h.2]⟩
    | none => exact ih h

/-- the draw that finds a divisor of a composite. -/
theorem rhoSearch_good (M : Int) (m : Nat) (h4 : 4 < m) (hM : Fits M m) (hnp : ¬ m.Prime) :
    ∃ r : Nat, (r : Int) < m - 2 ∧ ∀ draws, ∃ d, rhoSearch M m (r :: draws) = .ok (d, draws) ∧ 1 < d ∧ d < m ∧ d ∣ m := by
  obtain ⟨c, c1, c2, hg⟩ := exists_good h4 hnp
  refine ⟨c - 1, by omega, fun draws => ?_⟩
  obtain ⟨d, hd, e⟩ := rhoRound_finds M m c (by omega) hM (by omega) hg
  refine ⟨d, ?_, e⟩
  have h2 := hM.2
  rw [rhoSearch, chk_ok ⟨by omega, by omega⟩]
  simp only [Res.bind_ok, randomDigit]
  rw [if_pos (by omega)]
  simp only [Res.bind_ok]
  have ec : 1 + ((c - 1 : Nat) : Int) % ((m : Int) - 2 - 1 + 1) = c := by
    rw [Int.emod_eq_of_lt] <;> omega
  rw [ec, hd]
  rfl

theorem rhoSearch_live (M : Int) (m : Nat) (h4 : 4 < m) (hM : Fits M m) (hnp : ¬ m.Prime) : Live (rhoSearch M m) where
  ext pre d rest l h := rhoSearch_ext M m pre d rest l h
  live pre := by
    obtain ⟨r, -, hr⟩ := rhoSearch_good M m h4 hM hnp
    refine ⟨[r], ?_⟩
    induction pre with
    | nil =>
      obtain ⟨d, hd, -⟩ := hr []
      exact ⟨d, [], hd⟩
    | cons x pre ih =>
      rw [List.cons_append]
      rcases rhoSearch_cons M m (by omega) hM x (pre ++ [r]) with ⟨d, hd, -⟩ | h
      · exact ⟨d, _, hd⟩
      · rw [h]; exact ih

theorem pollardRho_live (M m : Int) (hm : 1 < m) (hM : Fits M m) : Live (pollardRho M m) := by
  unfold pollardRho
  by_cases h4 : m = 4
  · simp only [if_pos h4]
    exact .pure 2
  · simp only [if_neg h4]
    obtain ⟨b, hb, hp, -⟩ := isPrime_total M m (Or.inl hM)
    simp only [hb, Res.bind_ok]
    cases b with
    | true =>
      simp only [if_true]
      exact .pure m
    | false =>
      simp only [Bool.false_eq_true, if_false]
      obtain ⟨k, rfl⟩ : ∃ k : Nat, m = k := ⟨m.toNat, by omega⟩
      have hnp : ¬ k.Prime := fun h => absurd (hp ⟨by omega, by simpa using h⟩) (by simp)
      have hk : 4 < k := by
        by_contra hcon
        have : k = 2 ∨ k = 3 := by omega
        rcases this with rfl | rfl
        · exact hnp Nat.prime_two
        · exact hnp Nat.prime_three
      exact rhoSearch_live M k hk hM hnp

theorem factorizeF_live (M : Int) (fuel : Nat) (n : Int) (ret : List Int)
    (hn : 1 ≤ n) (hM : Fits M n) (hf : n.natAbs < fuel) : Live (factorizeF M fuel n ret) := by
  induction fuel generalizing n ret with
  | zero => omega
  | succ fuel ih =>
    have e : factorizeF M (fuel + 1) n ret = fun draws => factorizeF M (fuel + 1) n ret draws := rfl
    rw [e]
    unfold factorizeF
    by_cases h1 : n = 1
    · simp only [if_pos h1]
      exact .pure ret
    · simp only [if_neg h1]
      refine Live.bind (P := fun d => 1 < d ∧ d ∣ n ∧ ((d = n ∧ isPrime M n = .ok true) ∨ d < n))
        (pollardRho_live M n (by omega) hM) ?_ ?_
      · intro pre a rest h
        rcases pollardRho_spec M n (by omega) hM pre with h' | ⟨d, rest', h', d1, d2, d3⟩
        · rw [h'] at h; cases h
        · rw [h'] at h
          simp only [Res.ok.injEq, Prod.mk.injEq] at h
          obtain ⟨rfl, -⟩ := h
          refine ⟨d1, d2, ?_⟩
          rcases d3 with d3 | d3
          · exact Or.inl d3
          · exact Or.inr d3.1
      · rintro d ⟨d1, ⟨k, rfl⟩, d3⟩
        have hd0 : d ≠ 0 := by omega
        have hk : 1 ≤ k := by nlinarith
        simp only [if_neg hd0, Int.mul_tdiv_cancel_left _ hd0]
        have hdle : d ≤ d * k := by nlinarith
        have hkle : k < d * k := by nlinarith
        have hMd := hM.mono (k := d) (by omega) hdle
        have hMk := hM.mono (k := k) (by omega) hkle.le
        obtain ⟨bd, hbd, -⟩ := isPrime_total M d (Or.inl hMd)
        obtain ⟨bk, hbk, -⟩ := isPrime_total M k (Or.inl hMk)
        simp only [hbd, hbk, Res.bind_ok]
        refine Live.bind (P := fun _ => True) (f := fun draws =>
          if (!bd) = true then factorizeF M fuel d ret draws else .ok (ret ++ [d], draws)) ?_ (fun _ _ _ _ => trivial) ?_
        · cases bd with
          | true => simpa using Live.pure (ret ++ [d])
          | false =>
            have hlt : d < d * k := by
              rcases d3 with ⟨e1, e2⟩ | e1
              · rw [← e1, hbd] at e2; simp at e2
              · exact e1
            simpa using ih d ret (by omega) hMd (by omega)
        · intro ret' _
          cases bk with
          | true => simpa using Live.pure (ret' ++ [k])
          | false => simpa using ih k ret' hk hMk (by omega)

end Symxx.Factor

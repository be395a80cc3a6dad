import Verif.Factor.Rho
/-!
# `factorize`: whatever is returned multiplies to the argument, without any bound on the argument
-/
namespace Symxx.Factor

theorem rhoOuter_any {M num c : Int} {f : Nat} {t r p d : Int} (h : rhoOuter M num c f t r p = .ok (some d)) :
    1 < d ∧ d ∣ num := by
  induction f generalizing t r p with
  | zero => cases h
  | succ f ih =>
    unfold rhoOuter at h
    obtain ⟨⟨t', r', p'⟩, -, h⟩ := Res.bind_eq_ok.1 h
    simp only at h
    split at h
    · rename_i hd
      injection h with h
      injection h with h
      subst h
      exact ⟨hd, Int.gcd_dvd_right ..⟩
    · split at h
      · exact ih h
      · cases h

theorem rhoSearch_any {M num d : Int} {draws rest : List Nat} (h : rhoSearch M num draws = .ok (d, rest)) :
    1 < d ∧ d ∣ num := by
  induction draws with
  | nil => cases h
  | cons r draws ih =>
    unfold rhoSearch at h
    obtain ⟨_, -, h⟩ := Res.bind_eq_ok.1 h
    obtain ⟨_, -, h⟩ := Res.bind_eq_ok.1 h
    obtain ⟨o, h1, h⟩ := Res.bind_eq_ok.1 h
    cases o with
    | none => exact ih h
    | some e =>
      injection h with h
      injection h with h _
      subst h
      exact rhoOuter_any h1

theorem pollardRho_any {M n d : Int} {draws rest : List Nat} (hn : 1 < n) (h : pollardRho M n draws = .ok (d, rest)) :
    1 < d ∧ d ∣ n := by
  unfold pollardRho at h
  split at h
  · rename_i h4
    injection h with h
    injection h with h _
    subst h4 h
    exact ⟨by norm_num, by norm_num⟩
  · obtain ⟨b, -, h⟩ := Res.bind_eq_ok.1 h
    split at h
    · injection h with h
      injection h with h _
      subst h
      exact ⟨hn, dvd_rfl⟩
    · exact rhoSearch_any h

theorem factorizeF_any {M : Int} {fuel : Nat} {n : Int} {ret fs : List Int} {draws rest : List Nat} (hn : 1 ≤ n)
    (h : factorizeF M fuel n ret draws = .ok (fs, rest)) :
    ∃ l, fs = ret ++ l ∧ l.prod = n ∧ ∀ p ∈ l, 1 < p ∧ isPrime M p = .ok true := by
  induction fuel generalizing n ret fs draws rest with
  | zero => cases h
  | succ fuel ih =>
    unfold factorizeF at h
    split at h
    · rename_i h1
      injection h with h
      injection h with h _
      exact ⟨[], by simp [h], by simp [h1], by simp⟩
    rename_i h1
    obtain ⟨⟨d, rest1⟩, h2, h⟩ := Res.bind_eq_ok.1 h
    obtain ⟨d1, k, rfl⟩ := pollardRho_any (by omega) h2
    simp only at h
    rw [if_neg (by omega), Int.mul_tdiv_cancel_left _ (by omega : d ≠ 0)] at h
    have hk : 1 ≤ k := by nlinarith
    obtain ⟨⟨ret', rest2⟩, h3, h⟩ := Res.bind_eq_ok.1 h
    have first : ∃ l, ret' = ret ++ l ∧ l.prod = d ∧ ∀ p ∈ l, 1 < p ∧ isPrime M p = .ok true := by
      obtain ⟨b, hb, h3⟩ := Res.bind_eq_ok.1 h3
      cases b with
      | false => exact ih (by omega) (by simpa using h3)
      | true =>
        simp only [Bool.not_true, Bool.false_eq_true, if_false] at h3
        injection h3 with h3
        injection h3 with h3 _
        exact ⟨[d], h3.symm, by simp, fun p hp => by rw [List.mem_singleton.1 hp]; exact ⟨d1, hb⟩⟩
    obtain ⟨l1, rfl, hl1, hp1⟩ := first
    simp only at h
    obtain ⟨b, hb, h⟩ := Res.bind_eq_ok.1 h
    cases b with
    | false =>
      obtain ⟨l2, rfl, hl2, hp2⟩ := ih hk (by simpa using h)
      refine ⟨l1 ++ l2, by simp, by rw [List.prod_append, hl1, hl2], fun p hp => ?_⟩
      rcases List.mem_append.1 hp with hp | hp
      · exact hp1 p hp
      · exact hp2 p hp
    | true =>
      simp only [Bool.not_true, Bool.false_eq_true, if_false] at h
      injection h with h
      injection h with h _
      have hk1 : 1 < k := by
        rcases Int.lt_or_eq_of_le hk with h | h
        · exact h
        · rw [← h, isPrime_one] at hb; simp at hb
      refine ⟨l1 ++ [k], by rw [← h]; simp, by simp [hl1], fun p hp => ?_⟩
      rcases List.mem_append.1 hp with hp | hp
      · exact hp1 p hp
      · rw [List.mem_singleton.1 hp]; exact ⟨hk1, hb⟩

end Symxx.Factor

import Verif.Factor.Prime
import Mathlib.Data.Nat.Factors
import Mathlib.Data.Fintype.Pigeonhole
import Mathlib.Data.List.Perm.Basic
/-! Pollard rho and `factorize`: partial correctness for every stream of random draws, and
termination of each rho round. -/
namespace Symxx.Factor

/-- the range needed for a number `m`: squares of residues are representable. -/
def Fits (M : Int) (m : Int) : Prop := (m - 1) * (m - 1) ≤ M ∧ 2 * m ≤ M

theorem Fits.mono {M m k : Int} (h : Fits M m) (hk : 1 ≤ k) (hkm : k ≤ m) : Fits M k :=
  ⟨by have := h.1; nlinarith, by have := h.2; omega⟩

theorem rhoF_spec (M m c x : Int) (hm : 0 < m) (hM : Fits M m) (hx : 0 ≤ x) (hxm : x < m)
    (hc : 0 ≤ c) : rhoF M m c x = .ok ((x * x + c) % m) := by
  unfold rhoF
  have h2 := hM.2
  rw [mulmod_spec M x x m hm h2 hx hx hxm.le]
  simp only [Res.bind_ok]
  have a1 := Int.emod_nonneg (x * x) hm.ne'
  have a2 := Int.emod_lt_of_pos (x * x) hm
  rw [tmod_emod hc]
  have b1 := Int.emod_nonneg c hm.ne'
  have b2 := Int.emod_lt_of_pos c hm
  rw [chk_ok ⟨by omega, by omega⟩]
  simp only [Res.bind_ok]
  rw [tmod_emod (by omega)]
  refine congrArg Res.ok ?_
  rw [← Int.add_emod]

/-- the rho sequence. -/
def rhoSeq (m c : Int) : Nat → Int
  | 0 => 0
  | n + 1 => (rhoSeq m c n * rhoSeq m c n + c) % m

theorem rhoSeq_range (m c : Int) (hm : 0 < m) (n : Nat) : 0 ≤ rhoSeq m c n ∧ rhoSeq m c n < m := by
  cases n with
  | zero => exact ⟨le_rfl, hm⟩
  | succ n => exact ⟨Int.emod_nonneg _ hm.ne', Int.emod_lt_of_pos _ hm⟩

theorem rhoF_seq (M m c : Int) (hm : 0 < m) (hM : Fits M m) (hc : 0 ≤ c) (n : Nat) :
    rhoF M m c (rhoSeq m c n) = .ok (rhoSeq m c (n + 1)) := by
  obtain ⟨h1, h2⟩ := rhoSeq_range m c hm n
  rw [rhoF_spec M m c _ hm hM h1 h2 hc]
  rfl

/-- inner loop: from position `j` it advances to some `j' ∈ (j, j+i]`, keeps `p` a non-zero residue,
and stops early only where `t = r` or at least after one step. -/
theorem rhoInner_spec (M m c : Int) (hm : 1 < m) (hM : Fits M m) (hc : 0 ≤ c) (i j : Nat) (p : Int)
    (hp : 0 < p) (hpm : p < m) :
    ∃ j' p', rhoInner M m c i (rhoSeq m c j) (rhoSeq m c (2 * j)) p =
        .ok (rhoSeq m c j', rhoSeq m c (2 * j'), p') ∧
      j ≤ j' ∧ (0 < i → j < j') ∧ 0 < p' ∧ p' < m ∧
      (∀ k, j < k → k < j' → rhoSeq m c k ≠ rhoSeq m c (2 * k)) := by
  have hm0 : 0 < m := by omega
  induction i generalizing j p with
  | zero => exact ⟨j, p, rfl, le_rfl, by omega, hp, hpm, by omega⟩
  | succ i ih =>
    unfold rhoInner
    have e2 : 2 * (j + 1) = 2 * j + 1 + 1 := by ring
    rw [rhoF_seq M m c hm0 hM hc, rhoF_seq M m c hm0 hM hc]
    simp only [Res.bind_ok]
    rw [rhoF_seq M m c hm0 hM hc]
    simp only [Res.bind_ok]
    rw [← e2]
    by_cases ht : rhoSeq m c (j + 1) = rhoSeq m c (2 * (j + 1))
    · rw [if_pos ht]
      exact ⟨j + 1, p, rfl, by omega, by omega, hp, hpm, by omega⟩
    · rw [if_neg ht]
      obtain ⟨a1, a2⟩ := rhoSeq_range m c hm0 (j + 1)
      obtain ⟨b1, b2⟩ := rhoSeq_range m c hm0 (2 * (j + 1))
      have h2 := hM.2
      rw [chk_ok ⟨by omega, by omega⟩]
      simp only [Res.bind_ok]
      rw [mulmod_spec M p _ m hm0 h2 hp.le (Int.natCast_nonneg _) (by omega)]
      simp only [Res.bind_ok]
      split
      · exact ⟨j + 1, p, rfl, by omega, by omega, hp, hpm, by omega⟩
      · rename_i hq
        have q1 := Int.emod_nonneg (p * ((rhoSeq m c (j + 1) - rhoSeq m c (2 * (j + 1))).natAbs : Int)) hm0.ne'
        have q2 := Int.emod_lt_of_pos (p * ((rhoSeq m c (j + 1) - rhoSeq m c (2 * (j + 1))).natAbs : Int)) hm0
        obtain ⟨j', p', h3, h4, _, h5, h6, h7⟩ := ih (j + 1) _ (by omega) q2
        refine ⟨j', p', h3, by omega, by omega, h5, h6, fun k hk1 hk2 => ?_⟩
        rcases Nat.lt_or_ge (j + 1) k with h | h
        · exact h7 k h hk2
        · have : k = j + 1 := by omega
          subst this; exact ht

/-- Floyd: some index `k`, `1 ≤ k ≤ m`, has `x_k = x_{2k}`. -/
theorem floyd (m c : Int) (hm : 0 < m) : ∃ k, 0 < k ∧ k ≤ m.toNat ∧ rhoSeq m c k = rhoSeq m c (2 * k) := by
  -- pigeonhole on x_0 … x_m
  obtain ⟨a, b, hab, hb, he⟩ : ∃ a b, a < b ∧ b ≤ m.toNat ∧ rhoSeq m c a = rhoSeq m c b := by
    have hmt : 0 < m.toNat := by omega
    let f : Fin (m.toNat + 1) → Fin m.toNat := fun i =>
      ⟨(rhoSeq m c i).toNat, by have := rhoSeq_range m c hm i; omega⟩
    obtain ⟨x, y, hxy, hfe⟩ := Fintype.exists_ne_map_eq_of_card_lt f (by simp)
    have hv : rhoSeq m c x = rhoSeq m c y := by
      have := congrArg Fin.val hfe
      simp only [f] at this
      have hx := rhoSeq_range m c hm x
      have hy := rhoSeq_range m c hm y
      omega
    rcases Nat.lt_or_gt_of_ne (fun h => hxy (Fin.ext h)) with h | h
    · exact ⟨x, y, h, by omega, hv⟩
    · exact ⟨y, x, h, by omega, hv.symm⟩
  -- periodic with period b - a from a on
  have hper : ∀ n, rhoSeq m c (a + n) = rhoSeq m c (b + n) := by
    intro n
    induction n with
    | zero => simpa using he
    | succ n ih =>
      show rhoSeq m c (a + n + 1) = rhoSeq m c (b + n + 1)
      simp only [rhoSeq, ih]
  set L := b - a with hL
  have hLpos : 0 < L := by omega
  have hper1 : ∀ n, a ≤ n → rhoSeq m c n = rhoSeq m c (n + L) := by
    intro n hn
    have := hper (n - a)
    rw [show a + (n - a) = n by omega, show b + (n - a) = n + L by omega] at this
    exact this
  have hperk : ∀ t n, a ≤ n → rhoSeq m c n = rhoSeq m c (n + t * L) := by
    intro t
    induction t with
    | zero => intro n _; simp
    | succ t ih =>
      intro n hn
      rw [ih n hn, hper1 (n + t * L) (by omega)]
      congr 1; ring
  -- the multiple of L in [a, b) (or L itself)
  rcases Nat.eq_zero_or_pos a with h0 | h0
  · refine ⟨L, hLpos, by omega, ?_⟩
    have := hperk 1 L (by omega)
    rw [this]; congr 1; ring
  · -- k = L * ceil(a / L)
    refine ⟨L * ((a + L - 1) / L), ?_, ?_, ?_⟩
    · apply Nat.mul_pos hLpos
      apply Nat.div_pos <;> omega
    · have := Nat.mul_div_le (a + L - 1) L
      omega
    · have hge : a ≤ L * ((a + L - 1) / L) := by
        have h1 := Nat.div_add_mod (a + L - 1) L
        have h2 := Nat.mod_lt (a + L - 1) hLpos
        omega
      have := hperk ((a + L - 1) / L) _ hge
      rw [this]; congr 1; ring

/-- a rho round always terminates; if it returns a number, that is a proper divisor. -/
theorem rhoOuter_spec (M m c : Int) (hm : 1 < m) (hM : Fits M m) (hc : 0 ≤ c) (k : Nat)
    (hk : rhoSeq m c k = rhoSeq m c (2 * k)) (n j : Nat) (hj : j < k) (hn : k < j + n) (p : Int)
    (hp : 0 < p) (hpm : p < m) :
    rhoOuter M m c n (rhoSeq m c j) (rhoSeq m c (2 * j)) p = .ok none ∨
    ∃ d, rhoOuter M m c n (rhoSeq m c j) (rhoSeq m c (2 * j)) p = .ok (some d) ∧ 1 < d ∧ d < m ∧ d ∣ m := by
  induction n generalizing j p with
  | zero => omega
  | succ n ih =>
    unfold rhoOuter
    obtain ⟨j', p', h1, h2, h3, h4, h5, h6⟩ := rhoInner_spec M m c hm hM hc 128 j p hp hpm
    have hj' := h3 (by omega)
    rw [h1]
    simp only [Res.bind_ok]
    have hgd : ((Int.gcd p' m : Nat) : Int) ∣ m := Int.gcd_dvd_right p' m
    have hgp : ((Int.gcd p' m : Nat) : Int) ∣ p' := Int.gcd_dvd_left p' m
    have hgle : ((Int.gcd p' m : Nat) : Int) ≤ p' := Int.le_of_dvd h4 hgp
    by_cases hd : ((Int.gcd p' m : Nat) : Int) > 1
    · rw [if_pos hd]
      exact Or.inr ⟨_, rfl, hd, by omega, hgd⟩
    · rw [if_neg hd]
      by_cases ht : rhoSeq m c j' ≠ rhoSeq m c (2 * j')
      · rw [if_pos ht]
        have : j' < k := by
          rcases Nat.lt_trichotomy j' k with h | h | h
          · exact h
          · subst h; exact absurd hk ht
          · exact absurd hk (h6 k hj h)
        exact ih j' this (by omega) p' h4 h5
      · rw [if_neg ht]
        exact Or.inl rfl

theorem rhoRound (M m c : Int) (hm : 1 < m) (hM : Fits M m) (hc : 0 ≤ c) :
    rhoOuter M m c (m.natAbs + 1) 0 0 1 = .ok none ∨
    ∃ d, rhoOuter M m c (m.natAbs + 1) 0 0 1 = .ok (some d) ∧ 1 < d ∧ d < m ∧ d ∣ m := by
  obtain ⟨k, k1, k2, k3⟩ := floyd m c (by omega)
  exact rhoOuter_spec M m c hm hM hc k k3 (m.natAbs + 1) 0 k1 (by omega) 1 (by omega) hm

/-- one draw: either a proper divisor is found, or the search goes on with the next draw. -/
theorem rhoSearch_cons (M m : Int) (hm : 3 < m) (hM : Fits M m) (r : Nat) (draws : List Nat) :
    (∃ d, rhoSearch M m (r :: draws) = .ok (d, draws) ∧ 1 < d ∧ d < m ∧ d ∣ m) ∨
    rhoSearch M m (r :: draws) = rhoSearch M m draws := by
  have h2 := hM.2
  have e : rhoSearch M m (r :: draws) = (do
      match ← rhoOuter M m (1 + (r : Int) % (m - 2 - 1 + 1)) (m.natAbs + 1) 0 0 1 with
      | some d => .ok (d, draws)
      | none => rhoSearch M m draws) := by
    rw [rhoSearch]
    rw [chk_ok ⟨by omega, by omega⟩]
    simp only [Res.bind_ok, randomDigit]
    rw [if_pos (by omega)]
    simp only [Res.bind_ok]
    rfl
  rw [e]
  have hc : (0 : Int) ≤ 1 + (r : Int) % (m - 2 - 1 + 1) := by
    have := Int.emod_nonneg (r : Int) (show m - 2 - 1 + 1 ≠ 0 by omega)
    omega
  rcases rhoRound M m _ (by omega) hM hc with h | ⟨d, h, h1, h2, h3⟩
  · rw [h]; exact Or.inr rfl
  · rw [h]; exact Or.inl ⟨d, rfl, h1, h2, h3⟩

/-- the search: for every list of draws, either all draws are used up without success, or a proper
divisor is returned. -/
theorem rhoSearch_spec (M m : Int) (hm : 3 < m) (hM : Fits M m) (draws : List Nat) :
    rhoSearch M m draws = .fuel ∨
    ∃ d rest, rhoSearch M m draws = .ok (d, rest) ∧ 1 < d ∧ d < m ∧ d ∣ m := by
  induction draws with
  | nil => exact Or.inl rfl
  | cons r draws ih =>
    rcases rhoSearch_cons M m hm hM r draws with ⟨d, h, h1, h2, h3⟩ | h
    · exact Or.inr ⟨d, draws, h, h1, h2, h3⟩
    · rw [h]; exact ih

theorem fastPath_B_total (M : Int) (m : Nat) (h1 : 489997 ≤ m) (h2 : m < 9006403)
    (hM : ((m : Int) - 1) * (m - 1) ≤ M) : ∃ b, fastPath M m = .ok b := by
  unfold fastPath
  rw [if_neg (by omega), if_pos (by omega)]
  split
  · have e2 : ((m : Int) / 2) = ((m / 2 : Nat) : Int) := by omega
    have hp : ∀ b : Nat, modpow M b ((m : Int) / 2) m = .ok ((b ^ (m / 2) % m : Nat) : Int) := by
      intro b; rw [e2]; exact modpow_nat M b (m / 2) m (by omega) hM
    have hp2 := hp 2
    have hp3 := hp 3
    have hp5 := hp 5
    simp only [Nat.cast_ofNat] at hp2 hp3 hp5
    simp only [hp2, hp3, hp5, Res.bind_ok]
    split
    · split <;> exact ⟨_, rfl⟩
    · exact ⟨_, rfl⟩
  · exact ⟨_, rfl⟩

/-- `is_prime` returns for every number in range (no undefined behaviour). -/
theorem isPrime_total (M n : Int) (hM : Fits M n ∨ n < 100000) : ∃ b, isPrime M n = .ok b ∧
    (PrimeInt n → b = true) ∧ (b = true → 1 < n) ∧
    (b = true → 9006403 ≤ n → 2 ^ (n.toNat - 1) % n.toNat = 1) := by
  unfold isPrime
  by_cases h : n < 100000
  · rw [if_pos h]
    refine ⟨_, rfl, fun h => (slowPath_spec n).2 h, fun h => ?_, fun _ _ => by omega⟩
    have := (slowPath_spec n).1 h
    have := this.2.two_le
    omega
  · rw [if_neg h]
    replace hM : Fits M n := by rcases hM with h | h; exacts [h, absurd h (by omega)]
    obtain ⟨m, rfl⟩ : ∃ m : Nat, n = m := ⟨n.toNat, by omega⟩
    have e : PrimeInt (m : Int) ↔ m.Prime := by simp [PrimeInt]
    rw [e]
    by_cases hA : m < 489997
    · exact ⟨_, fastPath_A M m (by omega) hA hM.1, by simp, fun _ => by omega, fun _ _ => by omega⟩
    · by_cases hB : m < 9006403
      · by_cases hex : m = 9006401
        · subst hex
          have hM1 := hM.1
          obtain ⟨b, hb⟩ := fastPath_B_total M 9006401 (by omega) (by omega) hM1
          refine ⟨b, hb, fun hp => ?_, fun _ => by omega, fun _ _ => by omega⟩
          exfalso; revert hp; norm_num
        · exact ⟨_, fastPath_B M m (by omega) hB hex hM.1, by simp, fun _ => by omega, fun _ _ => by omega⟩
      · obtain ⟨b, hb, hb2⟩ := fastPath_accept M m (by omega) hM.1
        refine ⟨b, hb, fun hp => ?_, fun _ => by omega, fun h1 _ => by simpa using (hb2 h1).1⟩
        rw [fastPath_prime M m hp (by omega) hM.1] at hb
        injection hb with hb
        exact hb.symm

theorem isPrime_one (M : Int) : isPrime M 1 = .ok false := rfl

/-- Pollard rho, for every list of draws. -/
theorem pollardRho_spec (M m : Int) (hm : 1 < m) (hM : Fits M m) (draws : List Nat) :
    pollardRho M m draws = .fuel ∨
    ∃ d rest, pollardRho M m draws = .ok (d, rest) ∧ 1 < d ∧ d ∣ m ∧
      ((d = m ∧ isPrime M m = .ok true) ∨ (d < m ∧ (isPrime M m = .ok false ∨ m = 4))) := by
  unfold pollardRho
  by_cases h4 : m = 4
  · rw [if_pos h4]
    subst h4
    exact Or.inr ⟨2, draws, rfl, by omega, by decide, Or.inr ⟨by omega, Or.inr rfl⟩⟩
  · rw [if_neg h4]
    obtain ⟨b, hb, hp, h1, _⟩ := isPrime_total M m (Or.inl hM)
    rw [hb]
    simp only [Res.bind_ok]
    cases b with
    | true => exact Or.inr ⟨m, draws, rfl, hm, dvd_refl _, Or.inl ⟨rfl, by simp⟩⟩
    | false =>
      simp only [Bool.false_eq_true, if_false]
      have h3 : 3 < m := by
        by_contra hcon
        have : m = 2 ∨ m = 3 := by omega
        rcases this with rfl | rfl
        · exact absurd (hp ⟨by omega, Nat.prime_two⟩) (by simp)
        · exact absurd (hp ⟨by omega, Nat.prime_three⟩) (by simp)
      rcases rhoSearch_spec M m h3 hM draws with h | ⟨d, rest, h, a1, a2, a3⟩
      · exact Or.inl h
      · exact Or.inr ⟨d, rest, h, a1, a3, Or.inr ⟨a2, Or.inl (by simp)⟩⟩

/-- `factorize` on `n ≥ 1` in range, for every list of draws: either the draws run out, or it
appends to `ret` a list with product `n` all of whose elements pass `is_prime`. -/
theorem factorizeF_spec (M : Int) (fuel : Nat) (n : Int) (ret : List Int) (draws : List Nat)
    (hn : 1 ≤ n) (hM : Fits M n) (hf : n.natAbs < fuel) :
    factorizeF M fuel n ret draws = .fuel ∨
    ∃ fs rest, factorizeF M fuel n ret draws = .ok (ret ++ fs, rest) ∧ fs.prod = n ∧
      ∀ p ∈ fs, 1 < p ∧ p ≤ n ∧ isPrime M p = .ok true := by
  induction fuel generalizing n ret draws with
  | zero => omega
  | succ fuel ih =>
    unfold factorizeF
    by_cases h1 : n = 1
    · rw [if_pos h1]
      exact Or.inr ⟨[], draws, by simp, by simp [h1], by simp⟩
    · rw [if_neg h1]
      rcases pollardRho_spec M n (by omega) hM draws with h | ⟨d, rest, h, d1, d2, d3⟩
      · rw [h]; exact Or.inl rfl
      · rw [h]
        simp only [Res.bind_ok]
        rw [if_neg (by omega)]
        obtain ⟨k, rfl⟩ := d2
        have hk : 1 ≤ k := by nlinarith
        rw [Int.mul_tdiv_cancel_left _ (by omega : d ≠ 0)]
        have hdle : d ≤ d * k := by nlinarith
        have hkle : k < d * k := by nlinarith
        have hMd := hM.mono (k := d) (by omega) hdle
        have hMk := hM.mono (k := k) (by omega) hkle.le
        obtain ⟨bd, hbd, _, _, _⟩ := isPrime_total M d (Or.inl hMd)
        obtain ⟨bk, hbk, _, hbk1, _⟩ := isPrime_total M k (Or.inl hMk)
        -- first factor
        have first : ∀ ret draws, ((do
            if !(← isPrime M d) then factorizeF M fuel d ret draws else .ok (ret ++ [d], draws)) =
              (.fuel : Res (List Int × List Nat))) ∨
            ∃ fs rest, (do
              if !(← isPrime M d) then factorizeF M fuel d ret draws else .ok (ret ++ [d], draws)) =
              (.ok (ret ++ fs, rest) : Res (List Int × List Nat)) ∧ fs.prod = d ∧
              ∀ p ∈ fs, 1 < p ∧ p ≤ d ∧ isPrime M p = .ok true := by
          intro ret draws
          rw [hbd]
          simp only [Res.bind_ok]
          cases bd with
          | true =>
            exact Or.inr ⟨[d], draws, rfl, by simp, by
              intro p hp
              rw [List.mem_singleton.1 hp]
              exact ⟨d1, le_rfl, hbd⟩⟩
          | false =>
            have hlt : d < d * k := by
              rcases d3 with ⟨e1, e2⟩ | ⟨e1, _⟩
              · rw [← e1, hbd] at e2; simp at e2
              · exact e1
            exact ih d ret draws (by omega) hMd (by omega)
        rcases first ret rest with hF | ⟨fs1, rest1, hF, hp1, hq1⟩
        · rw [hF]; exact Or.inl rfl
        · rw [hF]
          simp only [Res.bind_ok]
          rw [hbk]
          simp only [Res.bind_ok]
          cases bk with
          | true =>
            refine Or.inr ⟨fs1 ++ [k], rest1, by simp, by simp [hp1], ?_⟩
            intro p hp
            rcases List.mem_append.1 hp with hp | hp
            · obtain ⟨x1, x2, x3⟩ := hq1 p hp
              exact ⟨x1, by omega, x3⟩
            · rw [List.mem_singleton.1 hp]
              exact ⟨hbk1 rfl, hkle.le, hbk⟩
          | false =>
            rcases ih k (ret ++ fs1) rest1 hk hMk (by omega) with hG | ⟨fs2, rest2, hG, hp2, hq2⟩
            · exact Or.inl hG
            · refine Or.inr ⟨fs1 ++ fs2, rest2, by simpa using hG, by rw [List.prod_append, hp1, hp2], ?_⟩
              intro p hp
              rcases List.mem_append.1 hp with hp | hp
              · obtain ⟨x1, x2, x3⟩ := hq1 p hp
                exact ⟨x1, by omega, x3⟩
              · obtain ⟨x1, x2, x3⟩ := hq2 p hp
                exact ⟨x1, by omega, x3⟩

end Symxx.Factor

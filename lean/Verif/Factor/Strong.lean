import Verif.Factor.Rho
import Verif.Factor.Rabin
import Verif.Factor.StrongSpec
/-!
# What the witness loop of `is_prime` decides, and how many bases are liars
-/
namespace Symxx.Factor

theorem two_pow_odd {s s' d d' : Nat} (h : 2 ^ s * d = 2 ^ s' * d') (hd : d % 2 = 1) (hd' : d' % 2 = 1) :
    s = s' ∧ d = d' := by
  induction s generalizing s' with
  | zero =>
    cases s' with
    | zero => simpa using h
    | succ s' => rw [pow_succ', mul_assoc] at h; omega
  | succ s ih =>
    cases s' with
    | zero => rw [pow_succ', mul_assoc] at h; omega
    | succ s' =>
      rw [pow_succ', pow_succ', mul_assoc, mul_assoc] at h
      obtain ⟨h1, h2⟩ := ih (Nat.eq_of_mul_eq_mul_left (by norm_num) h)
      exact ⟨by rw [h1], h2⟩

theorem passes_iff {n a s d : Nat} (hds : n - 1 = 2 ^ s * d) (hd : d % 2 = 1) :
    PassesStrong n a ↔ (a ^ d % n = 1 ∨ ∃ i < s, a ^ (2 ^ i * d) % n = n - 1) := by
  constructor
  · rintro ⟨s', d', h1, h2, h3⟩
    obtain ⟨rfl, rfl⟩ := two_pow_odd (hds.symm.trans h1) hd h2
    exact h3
  · exact fun h => ⟨s, d, hds, hd, h⟩

/-- at most a quarter of the residues prime to an odd composite `n` (not a multiple of 3) pass the strong test. -/
theorem liars_card {n : Nat} (hn : 1 < n) (hnp : ¬ n.Prime) (h2 : n % 2 = 1) (h3 : ¬ 3 ∣ n) (S : Finset Nat)
    (hS : ∀ a ∈ S, 0 < a ∧ a < n ∧ PassesStrong n a) : 4 * S.card ≤ Nat.totient n := by
  have : NeZero n := ⟨by omega⟩
  obtain ⟨s, d, hd, hds⟩ := Nat.exists_eq_two_pow_mul_odd (n := n - 1) (by omega)
  have hd := Nat.odd_iff.1 hd
  have cop : ∀ a k : Nat, 0 < k → (a ^ k % n = 1 ∨ a ^ k % n = n - 1) → a.Coprime n := by
    intro a k hk h
    refine Nat.Coprime.of_dvd_left (dvd_pow_self a hk.ne') ?_
    unfold Nat.Coprime
    rw [Nat.gcd_comm, Nat.gcd_rec]
    rcases h with h | h
    · rw [h]; simp
    · rw [h]
      have : Nat.Coprime (n - 1) n := by
        have := Nat.coprime_self_add_right (m := n - 1) (n := 1)
        rw [Nat.sub_add_cancel hn.le] at this
        rw [this]; simp
      exact this
  have hq := Rabin.quarter hn hnp h2 h3 hds hd
  rw [Nat.card_eq_fintype_card (α := (ZMod n)ˣ), ZMod.card_units_eq_totient] at hq
  refine le_trans (Nat.mul_le_mul_left 4 ?_) hq
  have hunit : ∀ a : S, (a : Nat).Coprime n := by
    intro a
    obtain ⟨-, -, h⟩ := hS a a.2
    rcases (passes_iff hds hd).1 h with h | ⟨i, -, h⟩
    · exact cop a d (by omega) (Or.inl h)
    · exact cop a _ (Nat.mul_pos (by positivity) (by omega)) (Or.inr h)
  have hcast : ∀ (a : S) (k : Nat), ((ZMod.unitOfCoprime a (hunit a) ^ k : (ZMod n)ˣ) : ZMod n) = ((a ^ k % n : Nat) : ZMod n) := by
    intro a k
    rw [Units.val_pow_eq_pow_val, ZMod.coe_unitOfCoprime, ZMod.natCast_mod]
    push_cast; rfl
  rw [show S.card = Nat.card S by simp]
  refine Nat.card_le_card_of_injective (fun a : S => (⟨ZMod.unitOfCoprime a (hunit a), ?_⟩ :
    {a : (ZMod n)ˣ // a ^ d = 1 ∨ ∃ i < s, a ^ (2 ^ i * d) = -1})) ?_
  · obtain ⟨-, -, h⟩ := hS a a.2
    rcases (passes_iff hds hd).1 h with h | ⟨i, hi, h⟩
    · left; ext; rw [hcast, h]; simp
    · right
      refine ⟨i, hi, ?_⟩
      ext; rw [hcast, h, Nat.cast_sub hn.le]; simp
  · intro a b h
    have h1 := congrArg (fun z => ((z.1 : (ZMod n)ˣ) : ZMod n)) h
    simp only [ZMod.coe_unitOfCoprime] at h1
    rw [ZMod.natCast_eq_natCast_iff', Nat.mod_eq_of_lt (hS a a.2).2.1, Nat.mod_eq_of_lt (hS b b.2).2.1] at h1
    exact Subtype.ext h1

/-- the bases 1 and `n - 1` always pass, so fewer than a quarter of the bases drawn by the code do. -/
theorem liars_drawn {n : Nat} (hn : 5 ≤ n) (hnp : ¬ n.Prime) (h2 : n % 2 = 1) (h3 : ¬ 3 ∣ n) (S : Finset Nat)
    (hS : ∀ a ∈ S, 2 ≤ a ∧ a ≤ n - 3 ∧ PassesStrong n a) : 4 * S.card < n - 4 := by
  have h1 : PassesStrong n 1 := by
    obtain ⟨s, d, hd, hds⟩ := Nat.exists_eq_two_pow_mul_odd (n := n - 1) (by omega)
    exact ⟨s, d, hds, Nat.odd_iff.1 hd, Or.inl (by rw [one_pow, Nat.mod_eq_of_lt (by omega)])⟩
  have hm : PassesStrong n (n - 1) := by
    obtain ⟨s, d, hd, hds⟩ := Nat.exists_eq_two_pow_mul_odd (n := n - 1) (by omega)
    have hs : 0 < s := by
      rcases Nat.eq_zero_or_pos s with rfl | h
      · rw [pow_zero, one_mul] at hds
        have := Nat.odd_iff.1 hd; omega
      · exact h
    refine ⟨s, d, hds, Nat.odd_iff.1 hd, Or.inr ⟨0, hs, ?_⟩⟩
    rw [pow_zero, one_mul]
    have h := (Nat.ModEq.pow d (show (n - 1) * (n - 1) ≡ 1 [MOD n] by
      obtain ⟨j, rfl⟩ : ∃ j, n = j + 2 := ⟨n - 2, by omega⟩
      have : (j + 2 - 1) * (j + 2 - 1) = (j + 2) * j + 1 := by rw [show j + 2 - 1 = j + 1 from rfl]; ring
      unfold Nat.ModEq
      rw [this, Nat.mul_add_mod]))
    obtain ⟨c, rfl⟩ := hd
    have e : (n - 1) ^ (2 * c + 1) = ((n - 1) * (n - 1)) ^ c * (n - 1) := by rw [pow_succ, pow_mul, pow_two]
    have hsq : ((n - 1) * (n - 1)) ≡ 1 [MOD n] := by
      obtain ⟨j, rfl⟩ : ∃ j, n = j + 2 := ⟨n - 2, by omega⟩
      have : (j + 2 - 1) * (j + 2 - 1) = (j + 2) * j + 1 := by rw [show j + 2 - 1 = j + 1 from rfl]; ring
      unfold Nat.ModEq
      rw [this, Nat.mul_add_mod]
    have h5 := (hsq.pow c).mul_right (n - 1)
    rw [one_pow, one_mul] at h5
    rw [e]
    unfold Nat.ModEq at h5
    rw [h5, Nat.mod_eq_of_lt (by omega)]
  have h := liars_card (n := n) (by omega) hnp h2 h3 (insert 1 (insert (n - 1) S)) (by
    intro a ha
    simp only [Finset.mem_insert] at ha
    rcases ha with rfl | rfl | ha
    · exact ⟨by omega, by omega, h1⟩
    · exact ⟨by omega, by omega, hm⟩
    · obtain ⟨p, q, r⟩ := hS a ha
      exact ⟨by omega, by omega, r⟩)
  have ht : Nat.totient n ≤ n - 1 := by have := Nat.totient_lt n (by omega); omega
  rw [Finset.card_insert_of_notMem, Finset.card_insert_of_notMem] at h
  · omega
  · intro hh
    have := hS _ hh; omega
  · intro hh
    simp only [Finset.mem_insert] at hh
    rcases hh with hh | hh
    · omega
    · have := hS _ hh; omega

/-- what the witness loop decides: every base up to and including the first whose `d`-th power is not 1 must pass. -/
def Scan (n d : Nat) : List Int → Prop
  | [] => True
  | p :: ws => if p.toNat ^ d % n = 1 then Scan n d ws else PassesStrong n p.toNat

theorem witnessLoop_scan (M : Int) (m d s : Nat) (hm : 1 < m) (hds : m - 1 = 2 ^ s * d) (hd : d % 2 = 1)
    (hM1 : ((m : Int) - 1) * (m - 1) ≤ M) (hM2 : 2 * (m : Int) ≤ M) (ws : List Int) (hw : ∀ p ∈ ws, 0 ≤ p) :
    ∃ b, witnessLoop M m d s ws = .ok b ∧ (b = true ↔ Scan m d ws) := by
  induction ws with
  | nil => exact ⟨true, rfl, by simp [Scan]⟩
  | cons p ws ih =>
    obtain ⟨q, rfl⟩ : ∃ q : Nat, p = q := ⟨p.toNat, by have := hw p (by simp); omega⟩
    unfold witnessLoop Scan
    rw [modpow_nat M q d m hm hM1]
    simp only [Res.bind_ok, Nat.cast_eq_one, Int.toNat_natCast]
    by_cases hx : q ^ d % m = 1
    · rw [if_pos hx, if_pos hx]
      exact ih fun p hp => hw p (by simp [hp])
    · rw [if_neg hx, if_neg hx, passes_iff hds hd]
      obtain ⟨b, h3, h4⟩ := squareLoop_spec M m hm hM2 s _ (Nat.mod_lt (q ^ d) (by omega : 0 < m))
      rw [h3]
      have e : ∀ i, (q ^ d % m) ^ 2 ^ i % m = q ^ (2 ^ i * d) % m := by
        intro i; rw [← Nat.pow_mod, ← pow_mul, mul_comm]
      simp only [e] at h4
      simp only [hx, false_or, Res.bind_ok]
      cases b with
      | true => exact ⟨false, rfl, by rw [← h4]; simp⟩
      | false => exact ⟨true, rfl, by rw [← h4]; simp⟩

/-- the base of one draw. -/
def pick (n : Int) (r : Nat) : Int := 2 + (r : Int) % (n - 3 - 2 + 1)

theorem witnessLoopP_eq (M n d : Int) (s : Nat) (hn : 5 ≤ n) (ws : List Int) (draws : List Nat) (hl : ws.length ≤ draws.length) :
    ∃ k ≤ ws.length, witnessLoopP M n d s ws draws = (do
      let b ← witnessLoop M n d s ((draws.take ws.length).map (pick n))
      .ok (b, draws.drop k)) := by
  induction ws generalizing draws with
  | nil => exact ⟨0, le_rfl, by simp [witnessLoopP, witnessLoop]⟩
  | cons p ws ih =>
    cases draws with
    | nil => simp at hl
    | cons r draws =>
      simp only [List.length_cons, Nat.add_le_add_iff_right] at hl
      simp only [List.length_cons, List.take_succ_cons, List.map_cons]
      unfold witnessLoopP witnessLoop randomDigit
      rw [if_pos (by omega)]
      simp only [Res.bind_ok]
      rw [show 2 + (r : Int) % (n - 3 - 2 + 1) = pick n r from rfl]
      cases hx : modpow M (pick n r) d n with
      | ok x =>
        simp only [Res.bind_ok]
        by_cases h1 : x = 1
        · obtain ⟨k, hk, e⟩ := ih draws hl
          refine ⟨k + 1, by omega, ?_⟩
          rw [if_pos h1, if_pos h1, e]
          simp
        · refine ⟨1, by omega, ?_⟩
          rw [if_neg h1, if_neg h1]
          cases squareLoop M n s x with
          | ok b => cases b <;> simp
          | ub m => rfl
          | throw m => rfl
          | exn m => rfl
          | fuel => rfl
      | ub m => exact ⟨0, by omega, rfl⟩
      | throw m => exact ⟨0, by omega, rfl⟩
      | exn m => exact ⟨0, by omega, rfl⟩
      | fuel => exact ⟨0, by omega, rfl⟩

theorem witnesses_length (n : Int) : (witnesses n).length ≤ 20 := by
  apply witnesses_pred (P := fun l => l.length ≤ 20)
  · intro k _
    rw [List.length_take]
    exact le_trans (min_le_right _ _) (by decide)
  · decide

theorem noneDivides_primes89 (m : Nat) : noneDivides m primes89 = true ↔ ∀ p, p.Prime → p ≤ 89 → ¬ p ∣ m := by
  rw [noneDivides_spec]
  constructor
  · intro h p hp hle hd
    have key : ∀ p : Nat, p < 90 → p.Prime → (p : Int) ∈ primes89 := by decide
    exact h p (key p (by omega) hp) (by exact_mod_cast hd)
  · intro h p hp hd
    have key : ∀ p ∈ primes89, 0 < p ∧ p ≤ 89 ∧ p.toNat.Prime := by
      decide
    obtain ⟨h1, h2, h3⟩ := key p hp
    refine h p.toNat h3 (by omega) ?_
    have : ((p.toNat : Nat) : Int) ∣ m := by rwa [Int.toNat_of_nonneg h1.le]
    exact_mod_cast this

/-- the fast path in both modes, for large numbers. -/
theorem fastPath_scan (M : Int) (m : Nat) (h1 : 9006403 ≤ m) (hM1 : ((m : Int) - 1) * (m - 1) ≤ M) {d : Nat} (hd : OddPart m d) :
    ∃ b, fastPath M m = .ok b ∧
      (b = true ↔ (∀ p, p.Prime → p ≤ 89 → ¬ p ∣ m) ∧ Scan m d (witnesses m)) := by
  have hM2 : 2 * (m : Int) ≤ M := by nlinarith
  unfold fastPath
  rw [if_pos (by omega), ← noneDivides_primes89]
  by_cases hnd : noneDivides m primes89 = true
  · rw [hnd]
    simp only [Bool.not_true, Bool.false_eq_true, if_false, true_and]
    obtain ⟨d', k, e1, e2, e3⟩ := split_nm1 m (by omega)
    rw [e1]
    simp only [Res.bind_ok]
    rw [mul_comm] at e2
    obtain ⟨hd1, s, hds⟩ := hd
    obtain ⟨rfl, rfl⟩ := two_pow_odd (e2.symm.trans hds) e3 hd1
    exact witnessLoop_scan M m d' k (by omega) e2 e3 hM1 hM2 _ fun p hp => by
      have := witnesses_small _ p hp; omega
  · have : noneDivides m primes89 = false := by simpa using hnd
    rw [this]
    exact ⟨false, rfl, by simp⟩

theorem fastPathP_scan (M : Int) (m : Nat) (h1 : 9006403 ≤ m) (hM1 : ((m : Int) - 1) * (m - 1) ≤ M) {d : Nat} (hd : OddPart m d)
    (draws : List Nat) (hl : 20 ≤ draws.length) :
    ∃ b rest, fastPathP M m draws = .ok (b, rest) ∧
      (b = true ↔ (∀ p, p.Prime → p ≤ 89 → ¬ p ∣ m) ∧
        Scan m d ((draws.take (witnesses m).length).map (pick m))) := by
  have hM2 : 2 * (m : Int) ≤ M := by nlinarith
  unfold fastPathP
  rw [if_pos (by omega), ← noneDivides_primes89]
  by_cases hnd : noneDivides m primes89 = true
  · rw [hnd]
    simp only [Bool.not_true, Bool.false_eq_true, if_false, true_and]
    obtain ⟨d', k, e1, e2, e3⟩ := split_nm1 m (by omega)
    rw [e1]
    simp only [Res.bind_ok]
    rw [mul_comm] at e2
    obtain ⟨hd1, s, hds⟩ := hd
    obtain ⟨rfl, rfl⟩ := two_pow_odd (e2.symm.trans hds) e3 hd1
    obtain ⟨j, -, e⟩ := witnessLoopP_eq M m d' k (by omega) (witnesses m) draws
      (le_trans (witnesses_length _) hl)
    obtain ⟨b, hb1, hb2⟩ := witnessLoop_scan M m d' k (by omega) e2 e3 hM1 hM2
      ((draws.take (witnesses m).length).map (pick m)) (by
        intro p hp
        obtain ⟨r, -, rfl⟩ := List.mem_map.1 hp
        unfold pick
        have := Int.emod_nonneg (r : Int) (show (m : Int) - 3 - 2 + 1 ≠ 0 by omega)
        omega)
    refine ⟨b, draws.drop j, ?_, hb2⟩
    rw [e, hb1]
    rfl
  · have : noneDivides m primes89 = false := by simpa using hnd
    rw [this]
    exact ⟨false, draws, rfl, by simp⟩

theorem passes_of_prime {m a : Nat} (hm : m.Prime) (h2 : 2 < m) (h0 : 0 < a) (ha : a < m) : PassesStrong m a := by
  obtain ⟨s, d, hd, hds⟩ := Nat.exists_eq_two_pow_mul_odd (n := m - 1) (by omega)
  refine ⟨s, d, hds, Nat.odd_iff.1 hd, ?_⟩
  by_cases hx : a ^ d % m = 1
  · exact Or.inl hx
  · right
    have hf : (a ^ d % m) ^ 2 ^ s % m = 1 := by
      rw [← Nat.pow_mod, ← pow_mul, mul_comm, ← hds]
      exact fermat hm h0 ha
    obtain ⟨i, hi, e⟩ := exists_neg_one hm s _ (Nat.mod_lt _ hm.pos) hx hf
    refine ⟨i, hi, ?_⟩
    rw [← e, ← Nat.pow_mod, ← pow_mul, mul_comm]

theorem scan_of_all {m d : Nat} {ws : List Int} (h : ∀ p ∈ ws, PassesStrong m p.toNat) : Scan m d ws := by
  induction ws with
  | nil => trivial
  | cons p ws ih =>
    unfold Scan
    split
    · exact ih fun q hq => h q (by simp [hq])
    · exact h p (by simp)

theorem scan_head {m d : Nat} (hd : OddPart m d) {p : Int} {ws : List Int} (h : Scan m d (p :: ws)) : PassesStrong m p.toNat := by
  unfold Scan at h
  split at h
  · obtain ⟨h1, s, h2⟩ := hd
    exact ⟨s, d, h2, h1, Or.inl ‹_›⟩
  · exact h

theorem exists_oddPart {m : Nat} (h : 1 < m) : ∃ d, OddPart m d := by
  obtain ⟨s, d, hd, hds⟩ := Nat.exists_eq_two_pow_mul_odd (n := m - 1) (by omega)
  exact ⟨d, Nat.odd_iff.1 hd, s, hds⟩

end Symxx.Factor

import Mathlib.Data.ZMod.Units
import Mathlib.Data.Nat.Squarefree
import Mathlib.RingTheory.ZMod.UnitsCyclic
import Mathlib.GroupTheory.Index
import Mathlib.FieldTheory.Finite.Basic
/-!
# At most a quarter of the bases are strong liars of an odd composite number

Used for the randomised mode of `is_prime` (factorize.hpp 210-250). Nothing here mentions the model.
-/
namespace Symxx.Rabin

/-- four pairwise inequivalent elements bound a subgroup by a quarter of the group. -/
theorem card_le_quarter {G : Type*} [CommGroup G] [Finite G] (H : Subgroup G) (f : Fin 4 → G)
    (hf : ∀ i j, i < j → (f i)⁻¹ * f j ∉ H) : 4 * Nat.card H ≤ Nat.card G := by
  have hinj : Function.Injective fun i => (QuotientGroup.mk (f i) : G ⧸ H) := by
    intro i j h
    have h' := QuotientGroup.eq.1 h
    rcases lt_trichotomy i j with hlt | he | hgt
    · exact absurd h' (hf i j hlt)
    · exact he
    · exact absurd (QuotientGroup.eq.1 h.symm) (hf j i hgt)
  have h4 : 4 ≤ H.index := by
    have := Nat.card_le_card_of_injective _ hinj
    simpa [Subgroup.index] using this
  rw [← H.index_mul_card]
  exact Nat.mul_le_mul_right _ h4

/-- the elements whose `m`-th power is `1` or `-1`. -/
def signs {R : Type*} [CommRing R] (m : ℕ) : Subgroup Rˣ where
  carrier := {a | a ^ m = 1 ∨ a ^ m = -1}
  mul_mem' := by
    rintro a b (ha | ha) (hb | hb) <;> simp [mul_pow, ha, hb]
  one_mem' := by simp
  inv_mem' := by
    rintro a (ha | ha) <;> simp [inv_pow, ha]

variable {n : ℕ}

/-- non-squarefree case. -/
theorem quarter_of_sq {p m : ℕ} (h5 : 5 ≤ p) (hd : p * p ∣ n) (hn : 1 < n) (hm : 2 * m ∣ n - 1) :
    4 * Nat.card (signs m : Subgroup (ZMod n)ˣ) ≤ Nat.card (ZMod n)ˣ := by
  have : NeZero n := ⟨by omega⟩
  obtain ⟨q, hq⟩ := hd
  set e : ZMod n := ((p * q : ℕ) : ZMod n) with he
  have hee : e * e = 0 := by
    rw [he, ← Nat.cast_mul, ZMod.natCast_eq_zero_iff]
    exact ⟨q, by rw [hq]; ring⟩
  have hk : ∀ k : ℕ, (1 + e) ^ k = 1 + k * e := by
    intro k
    induction k with
    | zero => simp
    | succ k ih =>
      rw [pow_succ, ih]
      push_cast
      linear_combination (k : ZMod n) * hee
  have hne : ∀ i : ℕ, 0 < i → i < p → (i : ZMod n) * e ≠ 0 := by
    intro i h0 hi h
    rw [he, ← Nat.cast_mul, ZMod.natCast_eq_zero_iff, hq] at h
    have hq0 : 0 < p * q := by
      rcases Nat.eq_zero_or_pos (p * q) with h | h
      · rw [mul_assoc, h] at hq; omega
      · exact h
    rw [mul_assoc] at h
    have := Nat.dvd_of_mul_dvd_mul_right hq0 h
    exact absurd (Nat.le_of_dvd h0 this) (by omega)
  let a : (ZMod n)ˣ := ⟨1 + e, 1 - e, by linear_combination -hee, by linear_combination -hee⟩
  have hn1 : ((n - 1 : ℕ) : ZMod n) = -1 := by
    rw [Nat.cast_sub hn.le]; simp
  have key : ∀ i : ℕ, 0 < i → i < p → a ^ i ∉ (signs m : Subgroup (ZMod n)ˣ) := by
    intro i h0 hi hmem
    have h1 : (a ^ i) ^ (n - 1) = 1 := by
      obtain ⟨c, hc⟩ := hm
      rw [hc, mul_comm 2 m, mul_assoc, pow_mul]
      rcases hmem with h | h
      · rw [h, one_pow]
      · rw [h, pow_mul]; simp
    have h2 := congrArg (Units.val) h1
    rw [← pow_mul, Units.val_pow_eq_pow_val, Units.val_one] at h2
    have h3 : (1 + e) ^ (i * (n - 1)) = 1 := h2
    rw [hk, Nat.cast_mul, hn1] at h3
    apply hne i h0 hi
    linear_combination -h3
  refine card_le_quarter _ (fun i => a ^ (i : ℕ)) ?_
  intro i j hij
  have : (a ^ (i : ℕ))⁻¹ * a ^ (j : ℕ) = a ^ ((j : ℕ) - (i : ℕ)) := by
    rw [inv_mul_eq_iff_eq_mul, ← pow_add]
    congr 1
    have : (i : ℕ) < j := hij
    omega
  rw [this]
  have h1 : (i : ℕ) < j := hij
  exact key _ (by omega) (by omega)

/-- reduction of units modulo a divisor. -/
def red {u : ℕ} (h : u ∣ n) : (ZMod n)ˣ →* (ZMod u)ˣ := Units.map (ZMod.castHom h (ZMod u) : ZMod n →* ZMod u)

theorem red_neg {u : ℕ} (h : u ∣ n) (a : (ZMod n)ˣ) : red h (-a) = - red h a := by
  ext; simp [red]

/-- Chinese remainders: a unit with a given residue modulo `u` and residue 1 modulo `v`. -/
theorem exists_lift {u v : ℕ} (h : u * v = n) (hc : u.Coprime v) (x : (ZMod u)ˣ) :
    ∃ a : (ZMod n)ˣ, red ⟨v, h.symm⟩ a = x ∧ red (u := v) ⟨u, by rw [← h, mul_comm]⟩ a = 1 := by
  subst h
  let e : (ZMod (u * v))ˣ ≃* (ZMod u)ˣ × (ZMod v)ˣ :=
    (Units.mapEquiv (ZMod.chineseRemainder hc).toMulEquiv).trans MulEquiv.prodUnits
  obtain ⟨a, ha⟩ := e.surjective (x, 1)
  refine ⟨a, ?_, ?_⟩
  · have h1 := congrArg (fun z => (z.1 : ZMod u)) ha
    have h2 : ((ZMod.cast (a : ZMod (u * v)) : ZMod u × ZMod v)).1 = x := h1
    ext
    rw [← h2, Prod.fst_zmod_cast]
    rfl
  · have h1 := congrArg (fun z => (z.2 : ZMod v)) ha
    have h2 : ((ZMod.cast (a : ZMod (u * v)) : ZMod u × ZMod v)).2 = ((1 : (ZMod v)ˣ) : ZMod v) := h1
    ext
    rw [← h2, Prod.snd_zmod_cast]
    rfl

theorem one_ne_neg {u : ℕ} (hu : 2 < u) : (1 : (ZMod u)ˣ) ≠ -1 := by
  have : Fact (2 < u) := ⟨hu⟩
  intro h
  have h2 := congrArg Units.val h
  simp only [Units.val_one, Units.val_neg] at h2
  exact ZMod.neg_one_ne_one h2.symm

theorem not_sign {u w m : ℕ} (hu : u ∣ n) (hw : w ∣ n) (u2 : 2 < u) (w2 : 2 < w) {a : (ZMod n)ˣ}
    (h1 : red hu a ^ m = -1) (h2 : red hw a ^ m = 1) : a ∉ (signs m : Subgroup (ZMod n)ˣ) := by
  rintro (h | h)
  · have := congrArg (red hu) h
    rw [map_pow, h1, map_one] at this
    exact one_ne_neg u2 this.symm
  · have := congrArg (red hw) h
    rw [map_pow, h2, red_neg, map_one] at this
    exact one_ne_neg w2 this

/-- three coprime factors. -/
theorem quarter_of_three {u v w m : ℕ} (h : u * v * w = n) (hn : n ≠ 0) (huv : u.Coprime v) (huw : u.Coprime w) (hvw : v.Coprime w)
    (u2 : 2 < u) (v2 : 2 < v) (w2 : 2 < w) (b : (ZMod n)ˣ) (hb : b ^ m = -1) :
    4 * Nat.card (signs m : Subgroup (ZMod n)ˣ) ≤ Nat.card (ZMod n)ˣ := by
  have : NeZero n := ⟨hn⟩
  have hu : u ∣ n := ⟨v * w, by rw [← h]; ring⟩
  have hv : v ∣ n := ⟨u * w, by rw [← h]; ring⟩
  have hw : w ∣ n := ⟨u * v, by rw [← h]; ring⟩
  have hvw' : v * w ∣ n := ⟨u, by rw [← h]; ring⟩
  have huw' : u * w ∣ n := ⟨v, by rw [← h]; ring⟩
  have huv' : u * v ∣ n := ⟨w, by rw [← h]⟩
  have comp : ∀ {x y : ℕ} (hxy : x ∣ y) (hy : y ∣ n) (a : (ZMod n)ˣ), red hy a = 1 → red (hxy.trans hy) a = 1 := by
    intro x y hxy hy a ha
    have h2 := congrArg Units.val ha
    ext
    have e : (ZMod.castHom (hxy.trans hy) (ZMod x)) (a : ZMod n) =
        (ZMod.castHom hxy (ZMod x)) ((ZMod.castHom hy (ZMod y)) (a : ZMod n)) := by
      rw [← RingHom.comp_apply, ZMod.castHom_comp]
    have e2 : (ZMod.castHom hy (ZMod y)) (a : ZMod n) = 1 := h2
    rw [e2, map_one] at e
    exact e
  have neg : ∀ {x : ℕ} (hx : x ∣ n), red hx b ^ m = -1 := by
    intro x hx
    rw [← map_pow, hb, red_neg, map_one]
  obtain ⟨a1, p1, q1⟩ := exists_lift (n := n) (u := u) (v := v * w) (by rw [← h]; ring)
    (Nat.Coprime.mul_right huv huw) (red hu b)
  obtain ⟨a2, p2, q2⟩ := exists_lift (n := n) (u := v) (v := u * w) (by rw [← h]; ring)
    (Nat.Coprime.mul_right huv.symm hvw) (red hv b)
  obtain ⟨a3, p3, q3⟩ := exists_lift (n := n) (u := w) (v := u * v) (by rw [← h]; ring)
    (Nat.Coprime.mul_right huw.symm hvw.symm) (red hw b)
  have q1v : red hv a1 = 1 := comp ⟨w, rfl⟩ _ a1 q1
  have q1w : red hw a1 = 1 := comp ⟨v, by ring⟩ _ a1 q1
  have q2u : red hu a2 = 1 := comp ⟨w, rfl⟩ _ a2 q2
  have q2w : red hw a2 = 1 := comp ⟨u, by ring⟩ _ a2 q2
  have q3u : red hu a3 = 1 := comp ⟨v, rfl⟩ _ a3 q3
  have q3v : red hv a3 = 1 := comp ⟨u, by ring⟩ _ a3 q3
  have p1' : red hu a1 ^ m = -1 := by rw [p1]; exact neg hu
  have p2' : red hv a2 ^ m = -1 := by rw [p2]; exact neg hv
  have p3' : red hw a3 ^ m = -1 := by rw [p3]; exact neg hw
  refine card_le_quarter _ ![1, a1, a2, a3] ?_
  intro i j hij
  fin_cases i <;> fin_cases j <;> simp at hij <;> simp
  · exact not_sign hu hv u2 v2 p1' (by rw [q1v, one_pow])
  · exact not_sign hv hu v2 u2 p2' (by rw [q2u, one_pow])
  · exact not_sign hw hu w2 u2 p3' (by rw [q3u, one_pow])
  · exact not_sign hu hw u2 w2 (by simp [p1', q2u]) (by simp [q1w, q2w])
  · exact not_sign hu hv u2 v2 (by simp [p1', q3u]) (by simp [q1v, q3v])
  · exact not_sign hv hu v2 u2 (by simp [p2', q3v]) (by simp [q2u, q3u])

/-- two different primes. -/
theorem quarter_of_two {p q m : ℕ} (hp : p.Prime) (hq : q.Prime) (hlt : p < q) (h2 : 2 < p) (h : q * p = n)
    (hm : 2 * m ∣ n - 1) (b : (ZMod n)ˣ) (hb : b ^ m = -1) :
    4 * Nat.card (signs m : Subgroup (ZMod n)ˣ) ≤ Nat.card (ZMod n)ˣ := by
  have : NeZero n := ⟨by rw [← h]; exact Nat.mul_ne_zero hq.ne_zero hp.ne_zero⟩
  have : Fact q.Prime := ⟨hq⟩
  have hc : q.Coprime p := (Nat.coprime_primes hq hp).2 (by omega)
  have hqn : q ∣ n := ⟨p, h.symm⟩
  have hpn : p ∣ n := ⟨q, by rw [← h, mul_comm]⟩
  have neg : ∀ {x : ℕ} (hx : x ∣ n), red hx b ^ m = -1 := by
    intro x hx
    rw [← map_pow, hb, red_neg, map_one]
  obtain ⟨a1, p1, q1⟩ := exists_lift h hc (red hqn b)
  obtain ⟨g, hg⟩ := IsCyclic.exists_generator (α := (ZMod q)ˣ)
  obtain ⟨c, p2, q2⟩ := exists_lift h hc g
  have hord : ¬ g ^ (2 * m) = 1 := by
    intro he
    have h1 : orderOf g ∣ n - 1 := (orderOf_dvd_of_pow_eq_one he).trans hm
    rw [orderOf_eq_card_of_forall_mem_zpowers hg, Nat.card_eq_fintype_card, ZMod.card_units_eq_totient,
      Nat.totient_prime hq] at h1
    have e : n - 1 = (q - 1) * p + (p - 1) := by
      obtain ⟨q', rfl⟩ : ∃ q', q = q' + 1 := ⟨q - 1, by omega⟩
      rw [← h, Nat.add_sub_cancel, Nat.add_mul, one_mul]
      omega
    rw [e] at h1
    have h3 := (Nat.dvd_add_right ⟨p, rfl⟩).1 h1
    have := Nat.le_of_dvd (by omega) h3
    omega
  have p1' : red hqn a1 ^ m = -1 := by rw [p1]; exact neg hqn
  have hsq : ∀ a : (ZMod n)ˣ, a ∈ (signs m : Subgroup (ZMod n)ˣ) → red hqn a ^ (2 * m) = 1 := by
    rintro a (h | h)
    · rw [mul_comm, pow_mul, ← map_pow, h]; simp
    · rw [mul_comm, pow_mul, ← map_pow, h, red_neg]; simp
  have k1 : red hqn a1 ^ (2 * m) = 1 := by rw [mul_comm, pow_mul, p1']; simp
  have k2 : red hqn c ^ (2 * m) ≠ 1 := by rw [p2]; exact hord
  refine card_le_quarter _ ![1, a1, c, c * a1] ?_
  intro i j hij
  have n1 : a1 ∉ (signs m : Subgroup (ZMod n)ˣ) := not_sign hqn hpn (by omega) h2 p1' (by rw [q1, one_pow])
  fin_cases i <;> fin_cases j <;> simp at hij <;> simp
  · exact n1
  · exact fun hh => k2 (hsq _ hh)
  · exact fun hh => k2 (by have := hsq _ hh; rwa [map_mul, mul_pow, k1, mul_one] at this)
  · exact fun hh => k2 (by have := hsq _ hh; rwa [map_mul, map_inv, mul_pow, inv_pow, k1, inv_one, one_mul] at this)
  · exact fun hh => k2 (hsq _ hh)
  · exact n1

theorem quarter {s d : ℕ} (hn : 1 < n) (hnp : ¬ n.Prime) (h2 : n % 2 = 1) (h3 : ¬ 3 ∣ n)
    (hds : n - 1 = 2 ^ s * d) (hd : d % 2 = 1) :
    4 * Nat.card {a : (ZMod n)ˣ // a ^ d = 1 ∨ ∃ i < s, a ^ (2 ^ i * d) = -1} ≤ Nat.card (ZMod n)ˣ := by
  have : NeZero n := ⟨by omega⟩
  have hs : 0 < s := by
    rcases Nat.eq_zero_or_pos s with rfl | h
    · rw [pow_zero, one_mul] at hds; omega
    · exact h
  -- the greatest exponent with a root of -1
  let Q : ℕ → Prop := fun i => i < s ∧ ∃ b : (ZMod n)ˣ, b ^ (2 ^ i * d) = -1
  have hQ0 : Q 0 := ⟨hs, -1, by rw [pow_zero, one_mul]; exact Odd.neg_one_pow (Nat.odd_iff.2 hd)⟩
  classical
  set j := Nat.findGreatest Q s with hj
  have hQj : Q j := Nat.findGreatest_spec (Nat.zero_le _) hQ0
  have hmax : ∀ i, Q i → i ≤ j := fun i hi => Nat.le_findGreatest hi.1.le hi
  obtain ⟨hjs, b, hb⟩ := hQj
  have hsub : Nat.card {a : (ZMod n)ˣ // a ^ d = 1 ∨ ∃ i < s, a ^ (2 ^ i * d) = -1} ≤
      Nat.card (signs (2 ^ j * d) : Subgroup (ZMod n)ˣ) := by
    refine Nat.card_le_card_of_injective (fun a => (⟨a.1, ?_⟩ : (signs (2 ^ j * d) : Subgroup (ZMod n)ˣ))) ?_
    · rcases a.2 with h | ⟨i, hi, h⟩
      · left; rw [mul_comm, pow_mul, h, one_pow]
      · have hle := hmax i ⟨hi, _, h⟩
        rcases Nat.eq_or_lt_of_le hle with he | hlt
        · right; rw [← he]; exact h
        · left
          have e : 2 ^ j * d = 2 ^ i * d * (2 * 2 ^ (j - i - 1)) := by
            have : j = i + (1 + (j - i - 1)) := by omega
            conv_lhs => rw [this, pow_add, pow_add, pow_one]
            ring
          rw [e, pow_mul, h, pow_mul]; simp
    · intro x y h
      exact Subtype.ext (congrArg (fun z : (signs (2 ^ j * d) : Subgroup (ZMod n)ˣ) => z.1) h)
  refine le_trans (Nat.mul_le_mul_left 4 hsub) ?_
  have hm : 2 * (2 ^ j * d) ∣ n - 1 := by
    rw [hds]
    refine ⟨2 ^ (s - j - 1), ?_⟩
    have : s = 1 + j + (s - j - 1) := by omega
    conv_lhs => rw [this, pow_add, pow_add, pow_one]
    ring
  have big : ∀ q, q ∣ n → q ≠ 1 → 2 < q := by
    intro q hq h1
    have h0 : q ≠ 0 := by rintro rfl; rw [zero_dvd_iff] at hq; omega
    have : q ≠ 2 := by rintro rfl; omega
    omega
  by_cases hsf : Squarefree n
  · have hp := Nat.minFac_prime (n := n) (by omega)
    obtain ⟨k, hk⟩ := Nat.minFac_dvd n
    have hcop : ∀ x y, x * y ∣ n → x.Coprime y := fun x y h => Nat.coprime_of_squarefree_mul (hsf.squarefree_of_dvd h)
    set p := n.minFac with hpdef
    have hk1 : k ≠ 1 := by rintro rfl; rw [mul_one] at hk; rw [hk] at hnp; exact hnp hp
    have hpk : p.Coprime k := hcop p k ⟨1, by rw [mul_one]; exact hk⟩
    by_cases hkp : k.Prime
    · have hle : p ≤ k := Nat.minFac_le_of_dvd hkp.two_le ⟨p, by rw [mul_comm]; exact hk⟩
      have hne : p ≠ k := by
        rintro e
        rw [← e, Nat.coprime_self] at hpk
        exact hp.one_lt.ne' hpk
      exact quarter_of_two hp hkp (lt_of_le_of_ne hle hne) (big p ⟨k, hk⟩ hp.one_lt.ne')
        (by rw [mul_comm]; exact hk.symm) hm b hb
    · have hq := Nat.minFac_prime hk1
      obtain ⟨r, hr⟩ := Nat.minFac_dvd k
      set q := k.minFac
      have hr1 : r ≠ 1 := by rintro rfl; rw [mul_one] at hr; rw [hr] at hkp; exact hkp hq
      have hqr : q.Coprime r := hcop q r ⟨p, by rw [← hr, mul_comm]; exact hk⟩
      rw [hr] at hpk
      have hn3 : p * q * r = n := by rw [mul_assoc, ← hr]; exact hk.symm
      exact quarter_of_three hn3 (by omega) (Nat.Coprime.coprime_mul_right_right hpk)
        (Nat.Coprime.coprime_mul_left_right hpk) hqr (big p ⟨k, hk⟩ hp.one_lt.ne')
        (big q ⟨p * r, by rw [← hn3]; ring⟩ hq.one_lt.ne') (big r ⟨p * q, by rw [← hn3]; ring⟩ hr1) b hb
  · rw [Nat.squarefree_iff_prime_squarefree] at hsf
    push Not at hsf
    obtain ⟨p, hp, hpd⟩ := hsf
    have hpn : p ∣ n := (Dvd.intro _ rfl).trans hpd
    have h2p := big p hpn hp.one_lt.ne'
    have h4 : p ≠ 4 := by rintro rfl; revert hp; decide
    have h3' : p ≠ 3 := by rintro rfl; exact h3 hpn
    exact quarter_of_sq (by omega) hpd hn hm

end Symxx.Rabin

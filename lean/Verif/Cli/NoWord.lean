import Verif.Expr.PrintShape
import Verif.Cli.Spec
import Verif.Frac.Canonical
/-!
# The text of an integer polynomial is no command

The letters at the beginning of the text are in alphabetical order, and no command begins that way.
-/
namespace Symxx.Cli
open Symxx.Num Symxx.Sym Symxx.Parser

/-- the letters at the beginning. -/
def lead (t : List Char) : List Char := t.takeWhile Parser.isAlpha

theorem lead_cons_ne {c : Char} (h : Parser.isAlpha c = false) (t : List Char) : lead (c :: t) = [] := by simp [lead, h]

theorem symsStr_lead {env : Env} : ∀ {s : Syms} {t : List Char}, Term.symsStr env s = .ok t →
    s.Pairwise (fun p q => p.1 < q.1) → ∀ z, lead z = [] →
      (lead (t ++ z)).Pairwise (· < ·) ∧ ∀ d ∈ lead (t ++ z), ∃ q ∈ s, q.1 = [d]
  | [], t, h, _, z, hz => by
    cases h
    rw [List.nil_append, hz]
    simp
  | p :: s, t, h, hp, z, hz => by
    unfold Term.symsStr at h
    obtain ⟨a, ha, h⟩ := Res.bind_eq_ok.1 h
    obtain ⟨b, hb, h⟩ := Res.bind_eq_ok.1 h
    cases h
    obtain ⟨i1, i2⟩ := symsStr_lead hb (List.pairwise_cons.1 hp).2 z hz
    unfold Term.symStr at ha
    obtain ⟨one, -, ha⟩ := Res.bind_eq_ok.1 ha
    cases ha
    cases one with
    | false =>
      simp only [Bool.not_false, if_true, List.append_assoc, List.cons_append]
      rw [lead_cons_ne (by decide)]
      simp
    | true =>
      simp only [Bool.not_true, Bool.false_eq_true, if_false]
      by_cases hl : p.1.length ≠ 1
      · rw [if_pos hl]
        simp only [List.append_assoc, List.cons_append]
        rw [lead_cons_ne (by decide)]
        simp
      · rw [if_neg hl]
        obtain ⟨c, hc⟩ := List.length_eq_one_iff.1 (not_not.1 hl)
        rw [hc, List.append_assoc, List.cons_append, List.nil_append]
        by_cases hal : Parser.isAlpha c = true
        · have e : lead (c :: (b ++ z)) = c :: lead (b ++ z) := by simp [lead, hal]
          rw [e]
          refine ⟨List.pairwise_cons.2 ⟨fun d hd => ?_, i1⟩, fun d hd => ?_⟩
          · obtain ⟨q, q1, q2⟩ := i2 d hd
            have := (List.pairwise_cons.1 hp).1 q q1
            rw [hc, q2] at this
            rcases List.cons_lt_cons_iff.1 this with h | ⟨-, h⟩
            · exact h
            · exact absurd h (List.not_lt_nil _)
          · rcases List.mem_cons.1 hd with rfl | hd
            · exact ⟨p, by simp, hc⟩
            · obtain ⟨q, q1, q2⟩ := i2 d hd
              exact ⟨q, by simp [q1], q2⟩
        · rw [lead_cons_ne (by simpa using hal)]
          simp

theorem strLoop_lead {env : Env} : ∀ {p : Poly} {u : List Char}, Poly.strLoop env p false = .ok u → lead u = []
  | [], u, h => by cases h; rfl
  | t :: ts, u, h => by
    unfold Poly.strLoop at h
    obtain ⟨z, -, h⟩ := Res.bind_eq_ok.1 h
    cases z with
    | true => exact strLoop_lead h
    | false =>
      simp only [Bool.false_eq_true, if_false] at h
      obtain ⟨b, -, h⟩ := Res.bind_eq_ok.1 h
      cases b with
      | true =>
        simp only [Bool.not_true, Bool.false_eq_true, if_false] at h
        obtain ⟨x, -, h⟩ := Res.bind_eq_ok.1 h
        obtain ⟨y, -, h⟩ := Res.bind_eq_ok.1 h
        cases h
        exact lead_cons_ne (by decide) _
      | false =>
        simp only [Bool.not_false, if_true] at h
        obtain ⟨w, -, h⟩ := Res.bind_eq_ok.1 h
        obtain ⟨x, -, h⟩ := Res.bind_eq_ok.1 h
        obtain ⟨y, -, h⟩ := Res.bind_eq_ok.1 h
        cases h
        exact lead_cons_ne (by decide) _

theorem toString_lead (k : Int) (z : List Char) : lead ((toString k).toList ++ z) = [] := by
  rcases lt_or_ge k 0 with h | h
  · rw [toString_neg k h]
    exact lead_cons_ne (by decide) _
  · obtain ⟨h1, -⟩ := spell_numeral (M := k) (q := ⟨k, 1⟩) ⟨h, le_rfl, rfl⟩
    simp only at h1
    cases hd : (toString k).toList with
    | nil => exact absurd hd h1.1
    | cons c cs =>
      have := h1.2 c (by rw [hd]; simp)
      refine lead_cons_ne ?_ _
      unfold isDig at this
      unfold Parser.isAlpha
      simp only [Bool.and_eq_true, decide_eq_true_eq] at this
      have e : ∀ a b : Char, a ≤ b ↔ a.toNat ≤ b.toNat := fun _ _ => Iff.rfl
      simp only [e] at this ⊢
      have := this.2
      simp only [show ('9' : Char).toNat = 57 from rfl] at this
      simp only [show ('a' : Char).toNat = 97 from rfl, show ('A' : Char).toNat = 65 from rfl]
      rw [decide_eq_false (by omega), decide_eq_false (p := 65 ≤ c.toNat) (by omega)]
      rfl

theorem poly_lead {env : Env} (h : env.IntOk) {D : Int} : ∀ {p : Poly} {u : List Char}, p.IntLe D → p.l1 ≤ env.M →
    Poly.strLoop env p true = .ok u → (lead u).Pairwise (· < ·)
  | [], u, _, _, hu => by cases hu; exact List.Pairwise.nil
  | t :: ts, u, hp, hl, hu => by
    have e1 : Poly.l1 (t :: ts) = |t.coe.coe.num| + Poly.l1 ts := by simp [Poly.l1]
    have n1 : 0 ≤ Poly.l1 ts := List.sum_nonneg (by simp)
    have n2 := abs_nonneg t.coe.coe.num
    have ht := hp t (by simp)
    unfold Poly.strLoop at hu
    obtain ⟨z, -, hu⟩ := Res.bind_eq_ok.1 hu
    cases z with
    | true => exact poly_lead h (fun v hv => hp v (by simp [hv])) (by omega) hu
    | false =>
      simp only [Bool.false_eq_true, if_false, if_true] at hu
      obtain ⟨x, hx, hu⟩ := Res.bind_eq_ok.1 hu
      obtain ⟨y, hy, hu⟩ := Res.bind_eq_ok.1 hu
      cases hu
      have hz := strLoop_lead hy
      unfold Term.toStr at hx
      obtain ⟨z, -, hx⟩ := Res.bind_eq_ok.1 hx
      cases z with
      | true =>
        cases hx
        show (lead ('0' :: y)).Pairwise _
        rw [lead_cons_ne (by decide)]
        exact List.Pairwise.nil
      | false =>
        simp only [Bool.false_eq_true, if_false] at hx
        obtain ⟨one, -, hx⟩ := Res.bind_eq_ok.1 hx
        obtain ⟨hd, hhd, hx⟩ := Res.bind_eq_ok.1 hx
        obtain ⟨v, hv, hx⟩ := Res.bind_eq_ok.1 hx
        cases hx
        split at hhd
        · obtain ⟨m, -, hhd⟩ := Res.bind_eq_ok.1 hhd
          split at hhd
          · cases hhd
            show (lead ('-' :: (v ++ y))).Pairwise _
            rw [lead_cons_ne (by decide)]
            exact List.Pairwise.nil
          · rw [ht.1, Real.toStr_int h (by omega)] at hhd
            cases hhd
            rw [List.append_assoc, toString_lead]
            exact List.Pairwise.nil
        · cases hhd
          rw [List.nil_append]
          exact (symsStr_lead hv ht.2.2.1 _ hz).1

theorem l1_nonzero (p : Poly) : Poly.l1 (Poly.nonzero p) ≤ Poly.l1 p := by
  induction p with
  | nil => simp [Poly.nonzero, Poly.l1]
  | cons t p ih =>
    have e : Poly.l1 (t :: p) = |t.coe.coe.num| + Poly.l1 p := by simp [Poly.l1]
    have := abs_nonneg t.coe.coe.num
    unfold Poly.nonzero at ih ⊢
    rw [List.filter_cons]
    split
    · have e' : ∀ q : Poly, Poly.l1 (t :: q) = |t.coe.coe.num| + Poly.l1 q := fun q => by simp [Poly.l1]
      rw [e', e']
      omega
    · omega

/-- no command begins with letters in alphabetical order. -/
theorem lead_word {t : List Char} (h : (lead t).Pairwise (· < ·)) : word t ∉ commandNames := by
  intro hm
  have hpre : word t <+: t := List.takeWhile_prefix _
  have key : ∀ w ∈ commandNames, (∀ c ∈ w, Parser.isAlpha c = true) ∧ ¬ w.Pairwise (· < ·) := by decide
  obtain ⟨k1, k2⟩ := key _ hm
  obtain ⟨r, hr⟩ := hpre
  refine k2 ?_
  have : lead t = word t ++ lead r := by
    conv_lhs => rw [← hr]
    exact List.takeWhile_append_of_pos k1
  rw [this] at h
  exact (List.pairwise_append.1 h).1

end Symxx.Cli

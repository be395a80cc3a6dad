import Verif.Expr.Names
import Verif.Frac.Solve
/-!
# Natural powers: what is true of all symbols and exponents, and is kept by adding exponents and by natural multiples,
is true of the power
-/
namespace Symxx.Sym
open Symxx.Num

/-- `P` survives adding exponents and multiplying an exponent by a natural number. -/
class ClosedNat (M : Int) (P : List Char × Rational → Prop) : Prop extends Closed M P where
  nat : ∀ {x u w} {a : Int}, 0 ≤ a → P (x, u) → Rational.mul M u ⟨a, 1⟩ = .ok w → P (x, w)

variable {P : List Char × Rational → Prop} {env : FEnv}

theorem Syms.scale_in_nat {M : Int} [hA : ClosedNat M P] {a : Int} (ha : 0 ≤ a) : ∀ {s s' : Syms}, In P s →
    scale M ⟨a, 1⟩ s = .ok s' → In P s' := by
  intro s
  induction s with
  | nil => intro s' hs h; injection h with h; subst h; exact hs
  | cons p t ih =>
    intro s' hs h
    obtain ⟨k, v⟩ := p
    unfold scale at h
    obtain ⟨w, h2, h⟩ := Res.bind_eq_ok.1 h
    obtain ⟨u, h1, h⟩ := Res.bind_eq_ok.1 h
    injection h with h; subst h
    exact in_cons.2 ⟨hA.nat ha (in_cons.1 hs).1 h2, ih (in_cons.1 hs).2 h1⟩

theorem Term.pow_in_nat {e : Env} [ClosedNat e.M P] {a t : Term} {n : Int} (hn : 0 ≤ n) (ha : In P a)
    (h : pow e a ⟨n, 1⟩ = .ok t) : In P t := by
  unfold pow at h
  obtain ⟨c, -, h⟩ := Res.bind_eq_ok.1 h
  obtain ⟨u, h1, h⟩ := Res.bind_eq_ok.1 h
  obtain ⟨v, h2, h⟩ := Res.bind_eq_ok.1 h
  injection h with h; subst h
  exact Syms.dropZero_in (Syms.scale_in_nat hn ha h1) h2

namespace Poly

theorem powerProd_in_nat {e : Env} (hM : 1 ≤ e.M) [ClosedNat e.M P] : ∀ {p : Poly} {v : List Int} {t u : Term},
    (∀ a ∈ v, 0 ≤ a ∧ a ≤ e.M) → In P p → Term.In P t → powerProd e p v t = .ok u → Term.In P u := by
  intro p
  induction p with
  | nil => intro v t u _ _ ht h; unfold powerProd at h; injection h with h; subst h; exact ht
  | cons a as ih =>
    intro v t u hv hp ht h
    cases v with
    | nil => unfold powerProd at h; injection h with h; subst h; exact ht
    | cons x xs =>
      obtain ⟨x1, x2⟩ := hv x List.mem_cons_self
      unfold powerProd at h
      rw [Rational.ofInt_eq _ _ (by rw [abs_of_nonneg x1]; exact x2) hM, Res.bind_ok] at h
      obtain ⟨y, h1, h⟩ := Res.bind_eq_ok.1 h
      obtain ⟨z, h2, h⟩ := Res.bind_eq_ok.1 h
      exact ih (fun a ha => hv a (List.mem_cons_of_mem _ ha)) (in_cons.1 hp).2
        (Term.mul_in ht (Term.pow_in_nat x1 (in_cons.1 hp).1 h1) h2) h

theorem expand_in_nat {e : Env} (hM : 1 ≤ e.M) [ClosedNat e.M P] {p : Poly} (hp : In P p) {f : Int} :
    ∀ {vs : List (List Int)} {r : Poly}, (∀ v ∈ vs, ∀ a ∈ v, 0 ≤ a ∧ a ≤ e.M) → expand e p f vs = .ok r → In P r := by
  intro vs
  induction vs with
  | nil => intro r _ h; injection h with h; subst h; exact In.nil
  | cons v vs ih =>
    intro r hv h
    unfold expand at h
    obtain ⟨u, h1, h⟩ := Res.bind_eq_ok.1 h
    obtain ⟨us, h2, h⟩ := Res.bind_eq_ok.1 h
    injection h with h; subst h
    unfold expandOne at h1
    obtain ⟨_, -, h1⟩ := Res.bind_eq_ok.1 h1
    obtain ⟨_, -, h1⟩ := Res.bind_eq_ok.1 h1
    obtain ⟨_, -, h1⟩ := Res.bind_eq_ok.1 h1
    exact in_cons.2 ⟨powerProd_in_nat hM (hv v List.mem_cons_self) hp (Term.ofReal_in _) h1,
      ih (fun v h => hv v (List.mem_cons_of_mem _ h)) h2⟩

theorem pow_in_nat (hs : SortOk env.sort) (hM : 1 ≤ env.M) [ClosedNat env.M P] {p r : Poly} {n : Nat} (hn : (n : Int) ≤ env.M)
    (hp : In P p) (h : pow env p ⟨n, 1⟩ = .ok r) : In P r := by
  unfold pow at h
  obtain ⟨a, -, h⟩ := Res.bind_eq_ok.1 h
  split at h
  · obtain ⟨t, h1, h⟩ := Res.bind_eq_ok.1 h
    exact normalize_in hs (in_cons.2 ⟨Term.ofInt_in h1, In.nil⟩) h
  · obtain ⟨b, -, h⟩ := Res.bind_eq_ok.1 h
    split at h
    · injection h with h; subst h; exact hp
    · split at h
      · obtain ⟨t, h1, h⟩ := Res.bind_eq_ok.1 h
        exact normalize_in hs (in_cons.2 ⟨Term.pow_in_nat (by positivity) (in_cons.1 hp).1 h1, In.nil⟩) h
      · rename_i hlen
        obtain ⟨x, hx, h⟩ := Res.bind_eq_ok.1 h
        cases x with
        | some x =>
          obtain ⟨y, -, h⟩ := Res.bind_eq_ok.1 h
          exact ofReal_in hs h
        | none =>
          obtain ⟨_, -, h⟩ := Res.bind_eq_ok.1 h
          obtain ⟨k, hk, h⟩ := Res.bind_eq_ok.1 h
          obtain ⟨_, -, h⟩ := Res.bind_eq_ok.1 h
          obtain ⟨vs, hvs, h⟩ := Res.bind_eq_ok.1 h
          obtain ⟨u, h1, h⟩ := Res.bind_eq_ok.1 h
          have hk : k = n := by
            obtain ⟨-, -, hk⟩ := divT_ok.1 hk
            simpa using hk
          have hlen2 : 2 ≤ p.length := by
            match p, hx, hlen with
            | [], h3, _ =>
              unfold tryEval at h3
              obtain ⟨z, -, h3⟩ := Res.bind_eq_ok.1 h3
              unfold tryEvalLoop at h3
              simp at h3
            | [t], _, hlen => exact absurd rfl (hlen t)
            | _ :: _ :: _, _, _ => simp
          obtain ⟨L, hL1, -, hmem⟩ := solveEq_spec p.length n (by positivity) hlen2
          rw [hk, hL1] at hvs
          injection hvs with hvs
          refine normalize_in hs (expand_in_nat hM hp ?_ h1) h
          intro v hv a ha
          rw [← hvs] at hv
          obtain ⟨-, s2, s3⟩ := (hmem v).1 hv
          refine ⟨s2 a ha, le_trans ?_ hn⟩
          rw [← s3]
          exact List.single_le_sum s2 a ha

end Poly

theorem Frac.pow_in_nat (hs : SortOk env.sort) (hM : 1 ≤ env.M) [ClosedNat env.M P] {a f : Frac} {n : Nat}
    (hn : (n : Int) ≤ env.M) (ha : a.In P) (h : pow env a ⟨n, 1⟩ = .ok f) : f.In P := by
  unfold pow at h
  obtain ⟨o, -, h⟩ := Res.bind_eq_ok.1 h
  cases o with
  | some r =>
    obtain ⟨x, -, h⟩ := Res.bind_eq_ok.1 h
    exact ofTerm_in hs (Term.ofReal_in _) h
  | none =>
    obtain ⟨n, h1, h⟩ := Res.bind_eq_ok.1 h
    obtain ⟨d, h2, h⟩ := Res.bind_eq_ok.1 h
    exact normalize_in hs ⟨Poly.pow_in_nat hs hM hn ha.1 h1, Poly.pow_in_nat hs hM hn ha.2 h2⟩ h

end Symxx.Sym

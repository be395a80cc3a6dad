import Verif.Expr.Model
import Verif.Parser.Shunt
import Verif.Expr.Spec
/-!
# The symbols of results

`In P x`: every symbol of `x`, with its exponent, satisfies `P`. All operations preserve this, whatever they compute, if
`P` is closed under adding exponents (`Closed`) and, for powers, multiplying them (`ClosedPow`); substitution removes the
bound symbols.
-/
namespace Symxx.Sym
open Symxx.Num

/-- the names of a term. -/
def Term.names (t : Term) : List (List Char) := t.syms.map (·.1)
/-- the names of a polynomial. -/
def Poly.names (p : Poly) : List (List Char) := p.flatMap Term.names
/-- the names of a fraction. -/
def Frac.names (f : Frac) : List (List Char) := Poly.names f.num ++ Poly.names f.den
/-- the names of a tree. -/
def Node.names : Node → List (List Char)
  | .frac f => f.names
  | .op _ l r => l.names ++ r.names

/-- `P` survives adding exponents. -/
class Closed (M : Int) (P : List Char × Rational → Prop) : Prop where
  add : ∀ {x u v w}, P (x, u) → P (x, v) → Rational.add M u v = .ok w → P (x, w)
/-- `P` survives multiplying an exponent. -/
class ClosedPow (M : Int) (P : List Char × Rational → Prop) : Prop extends Closed M P where
  mul : ∀ {x u q w}, P (x, u) → Rational.mul M u q = .ok w → P (x, w)

instance ClosedPow.names (M : Int) (Q : List Char → Prop) : ClosedPow M (fun p => Q p.1) where
  add h _ _ := h
  mul h _ := h

theorem Closed.and {M : Int} {P : List Char × Rational → Prop} {Q : List Char → Prop} (h : Closed M P) :
    Closed M (fun p => P p ∧ Q p.1) where
  add h1 h2 h3 := ⟨h.add h1.1 h2.1 h3, h1.2⟩
theorem ClosedPow.and {M : Int} {P : List Char × Rational → Prop} {Q : List Char → Prop} (h : ClosedPow M P) :
    ClosedPow M (fun p => P p ∧ Q p.1) where
  toClosed := h.toClosed.and
  mul h1 h2 := ⟨h.mul h1.1 h2, h1.2⟩

variable {P : List Char × Rational → Prop} {env : FEnv}

def Syms.In (P : List Char × Rational → Prop) (s : Syms) : Prop := ∀ p ∈ s, P p
def Term.In (P : List Char × Rational → Prop) (t : Term) : Prop := Syms.In P t.syms
def Poly.In (P : List Char × Rational → Prop) (p : Poly) : Prop := ∀ t ∈ p, Term.In P t
def Frac.In (P : List Char × Rational → Prop) (f : Frac) : Prop := Poly.In P f.num ∧ Poly.In P f.den
def Node.In (P : List Char × Rational → Prop) : Node → Prop
  | .frac f => f.In P
  | .op _ l r => Node.In P l ∧ Node.In P r

variable {N : List Char → Prop}

theorem Term.in_iff {t : Term} : Term.In (fun p => N p.1) t ↔ ∀ x ∈ t.names, N x := by
  unfold Term.In Syms.In Term.names
  simp

theorem Poly.in_iff {p : Poly} : Poly.In (fun p => N p.1) p ↔ ∀ x ∈ Poly.names p, N x := by
  unfold Poly.In Poly.names
  simp only [Term.in_iff, List.mem_flatMap]
  exact ⟨fun h x ⟨t, ht, hx⟩ => h t ht x hx, fun h t ht x hx => h x ⟨t, ht, hx⟩⟩

theorem Frac.in_iff {f : Frac} : f.In (fun p => N p.1) ↔ ∀ x ∈ f.names, N x := by
  unfold Frac.In Frac.names
  simp only [Poly.in_iff, List.mem_append]
  exact ⟨fun h x hx => hx.elim (h.1 x) (h.2 x), fun h => ⟨fun x hx => h x (Or.inl hx), fun x hx => h x (Or.inr hx)⟩⟩

theorem Node.in_iff {n : Node} : n.In (fun p => N p.1) ↔ ∀ x ∈ n.names, N x := by
  induction n with
  | frac f => exact Frac.in_iff
  | op c l r il ir =>
    unfold Node.In Node.names
    simp only [il, ir, List.mem_append]
    exact ⟨fun h x hx => hx.elim (h.1 x) (h.2 x), fun h => ⟨fun x hx => h x (Or.inl hx), fun x hx => h x (Or.inr hx)⟩⟩

/-! ### maps -/
namespace Syms

theorem In.nil : In P [] := fun _ h => by simp at h
theorem in_cons {p : List Char × Rational} {s : Syms} : In P (p :: s) ↔ P p ∧ In P s := by
  unfold In; simp

theorem addExp_in {M : Int} [hA : Closed M P] {k : List Char} {v : Rational} (hk : P (k, v)) : ∀ {s s' : Syms}, In P s → addExp M s k v = .ok s' → In P s' := by
  intro s
  induction s with
  | nil => intro s' hs h; injection h with h; subst h; exact in_cons.2 ⟨hk, hs⟩
  | cons p t ih =>
    intro s' hs h
    obtain ⟨k', v'⟩ := p
    unfold addExp at h
    split at h
    · injection h with h; subst h; exact in_cons.2 ⟨hk, hs⟩
    · split at h
      · rename_i hkk
        subst hkk
        obtain ⟨w, h1, h⟩ := Res.bind_eq_ok.1 h
        injection h with h; subst h
        exact in_cons.2 ⟨hA.add (in_cons.1 hs).1 hk h1, (in_cons.1 hs).2⟩
      · obtain ⟨w, h1, h⟩ := Res.bind_eq_ok.1 h
        injection h with h; subst h
        exact in_cons.2 ⟨(in_cons.1 hs).1, ih (in_cons.1 hs).2 h1⟩

theorem merge_in {M : Int} [Closed M P] {t : Syms} : ∀ {s s' : Syms}, In P s → In P t → merge M s t = .ok s' → In P s' := by
  induction t with
  | nil => intro s s' hs _ h; cases s <;> (injection h with h; subst h; exact hs)
  | cons p t ih =>
    intro s s' hs ht h
    obtain ⟨k, v⟩ := p
    unfold merge at h
    obtain ⟨w, h1, h⟩ := Res.bind_eq_ok.1 h
    exact ih (addExp_in (in_cons.1 ht).1 hs h1) (in_cons.1 ht).2 h

theorem scale_in {M : Int} [hA : ClosedPow M P] {q : Rational} : ∀ {s s' : Syms}, In P s → scale M q s = .ok s' → In P s' := by
  intro s
  induction s with
  | nil => intro s' hs h; injection h with h; subst h; exact hs
  | cons p t ih =>
    intro s' hs h
    obtain ⟨k, v⟩ := p
    unfold scale at h
    obtain ⟨w, h2, h⟩ := Res.bind_eq_ok.1 h
    obtain ⟨u, h1, h⟩ := Res.bind_eq_ok.1 h
    injection h with h; subst h
    exact in_cons.2 ⟨hA.mul (in_cons.1 hs).1 h2, ih (in_cons.1 hs).2 h1⟩

theorem dropZero_in {M : Int} : ∀ {s s' : Syms}, In P s → dropZero M s = .ok s' → In P s' := by
  intro s
  induction s with
  | nil => intro s' hs h; injection h with h; subst h; exact hs
  | cons p t ih =>
    intro s' hs h
    obtain ⟨k, v⟩ := p
    unfold dropZero at h
    obtain ⟨w, -, h⟩ := Res.bind_eq_ok.1 h
    obtain ⟨u, h1, h⟩ := Res.bind_eq_ok.1 h
    have hu := ih (in_cons.1 hs).2 h1
    injection h with h; subst h
    split
    · exact hu
    · exact in_cons.2 ⟨(in_cons.1 hs).1, hu⟩

end Syms

/-! ### terms -/
namespace Term
variable {e : Env}

theorem ofReal_in (c : Num.Real) : In P (ofReal c) := Syms.In.nil
theorem ofInt_in {n : Int} {t : Term} (h : ofInt e n = .ok t) : In P t := by
  unfold ofInt at h
  obtain ⟨c, -, h⟩ := Res.bind_eq_ok.1 h
  injection h with h; subst h
  exact ofReal_in c
theorem mk'_in {c : Num.Real} {s : Syms} {t : Term} (hs : Syms.In P s) (h : mk' e c s = .ok t) : In P t := by
  unfold mk' at h
  obtain ⟨u, h1, h⟩ := Res.bind_eq_ok.1 h
  injection h with h; subst h
  exact Syms.dropZero_in hs h1
theorem mul_in [Closed e.M P] {a b t : Term} (ha : In P a) (hb : In P b) (h : mul e a b = .ok t) : In P t := by
  unfold mul at h
  obtain ⟨u, h1, h⟩ := Res.bind_eq_ok.1 h
  obtain ⟨c, -, h⟩ := Res.bind_eq_ok.1 h
  obtain ⟨v, h2, h⟩ := Res.bind_eq_ok.1 h
  injection h with h; subst h
  exact Syms.dropZero_in (Syms.merge_in ha hb h1) h2
theorem divReal_in {a t : Term} {r : Num.Real} (ha : In P a) (h : divReal e a r = .ok t) : In P t := by
  unfold divReal at h
  obtain ⟨c, -, h⟩ := Res.bind_eq_ok.1 h
  obtain ⟨v, h2, h⟩ := Res.bind_eq_ok.1 h
  injection h with h; subst h
  exact Syms.dropZero_in ha h2
theorem pow_in [ClosedPow e.M P] {a t : Term} {q : Rational} (ha : In P a) (h : pow e a q = .ok t) : In P t := by
  unfold pow at h
  obtain ⟨c, -, h⟩ := Res.bind_eq_ok.1 h
  obtain ⟨u, h1, h⟩ := Res.bind_eq_ok.1 h
  obtain ⟨v, h2, h⟩ := Res.bind_eq_ok.1 h
  injection h with h; subst h
  exact Syms.dropZero_in (Syms.scale_in ha h1) h2
theorem negate_in {a t : Term} (ha : In P a) (h : negate e a = .ok t) : In P t := by
  unfold negate at h
  obtain ⟨c, -, h⟩ := Res.bind_eq_ok.1 h
  exact mk'_in ha h
theorem substitute_in {s : List (List Char × Num.Real)} {a t : Term} (ha : In P a) (h : substitute e s a = .ok t) :
    In (fun p => P p ∧ p.1 ∉ s.map (·.1)) t := by
  unfold substitute at h
  obtain ⟨c, -, h⟩ := Res.bind_eq_ok.1 h
  injection h with h; subst h
  intro p hp
  obtain ⟨h1, h2⟩ := List.mem_filter.1 hp
  refine ⟨ha p h1, ?_⟩
  intro hm
  obtain ⟨q, q1, q2⟩ := List.mem_map.1 hm
  have : (s.any fun q => decide (q.1 = p.1)) = true := List.any_eq_true.2 ⟨q, q1, by simpa using q2⟩
  rw [this] at h2
  cases h2
end Term

/-! ### polynomials -/
namespace Poly

theorem in_cons {t : Term} {p : Poly} : In P (t :: p) ↔ Term.In P t ∧ In P p := by unfold In; simp
theorem in_append {p q : Poly} : In P (p ++ q) ↔ In P p ∧ In P q := by
  unfold In
  simp only [List.mem_append]
  exact ⟨fun h => ⟨fun t ht => h t (Or.inl ht), fun t ht => h t (Or.inr ht)⟩, fun h t ht => ht.elim (h.1 t) (h.2 t)⟩
theorem In.nil : In P [] := fun _ h => by simp at h

theorem mergeAdj_in {e : Env} (n : Nat) : ∀ {p q : Poly}, p.length ≤ n → In P p → mergeAdj e p = .ok q → In P q := by
  induction n with
  | zero =>
    intro p q hl hp h
    have : p = [] := List.length_eq_zero_iff.1 (by omega)
    subst this
    unfold mergeAdj at h
    injection h with h; subst h; exact hp
  | succ n ih =>
    intro p q hl hp h
    match p with
    | [] => unfold mergeAdj at h; injection h with h; subst h; exact hp
    | [t] => unfold mergeAdj at h; injection h with h; subst h; exact hp
    | a :: b :: rest =>
      unfold mergeAdj at h
      obtain ⟨x, -, h⟩ := Res.bind_eq_ok.1 h
      obtain ⟨ha, hb⟩ := in_cons.1 hp
      simp only [List.length_cons] at hl
      cases x with
      | true =>
        simp only [if_true] at h
        obtain ⟨c, -, h⟩ := Res.bind_eq_ok.1 h
        obtain ⟨t, h1, h⟩ := Res.bind_eq_ok.1 h
        exact ih (by simp only [List.length_cons]; omega) (in_cons.2 ⟨Term.mk'_in ha h1, (in_cons.1 hb).2⟩) h
      | false =>
        simp only [Bool.false_eq_true, if_false] at h
        obtain ⟨r, h1, h⟩ := Res.bind_eq_ok.1 h
        injection h with h; subst h
        exact in_cons.2 ⟨ha, ih (by simp only [List.length_cons]; omega) hb h1⟩

theorem mapM_in {Q : List Char × Rational → Prop} {f : Term → Res Term} (hf : ∀ t u, Term.In P t → f t = .ok u → Term.In Q u) :
    ∀ {p q : Poly}, In P p → mapM f p = .ok q → In Q q := by
  intro p
  induction p with
  | nil => intro q _ h; injection h with h; subst h; exact In.nil
  | cons t ts ih =>
    intro q hp h
    unfold mapM at h
    obtain ⟨u, h1, h⟩ := Res.bind_eq_ok.1 h
    obtain ⟨us, h2, h⟩ := Res.bind_eq_ok.1 h
    injection h with h; subst h
    exact in_cons.2 ⟨hf _ _ (in_cons.1 hp).1 h1, ih (in_cons.1 hp).2 h2⟩

theorem products_in {e : Env} [Closed e.M P] {q : Poly} (hq : In P q) : ∀ {p r : Poly}, In P p → products e p q = .ok r → In P r := by
  intro p
  induction p with
  | nil => intro r _ h; injection h with h; subst h; exact In.nil
  | cons t ts ih =>
    intro r hp h
    unfold products at h
    obtain ⟨u, h1, h⟩ := Res.bind_eq_ok.1 h
    obtain ⟨us, h2, h⟩ := Res.bind_eq_ok.1 h
    injection h with h; subst h
    exact in_append.2 ⟨mapM_in (fun _ _ hx hy => Term.mul_in (in_cons.1 hp).1 hx hy) hq h1, ih (in_cons.1 hp).2 h2⟩

theorem negate_in {e : Env} {p q : Poly} (hp : In P p) (h : negate e p = .ok q) : In P q :=
  mapM_in (fun _ _ hx hy => Term.negate_in hx hy) hp h

theorem substitute_in {e : Env} {s : List (List Char × Num.Real)} {p q : Poly} (hp : In P p)
    (h : substitute e s p = .ok q) : In (fun p => P p ∧ p.1 ∉ s.map (·.1)) q :=
  mapM_in (fun _ _ hx hy => Term.substitute_in hx hy) hp h

theorem powerProd_in {e : Env} [ClosedPow e.M P] : ∀ {p : Poly} {v : List Int} {t u : Term}, In P p → Term.In P t → powerProd e p v t = .ok u → Term.In P u := by
  intro p
  induction p with
  | nil => intro v t u _ ht h; unfold powerProd at h; injection h with h; subst h; exact ht
  | cons a as ih =>
    intro v t u hp ht h
    cases v with
    | nil => unfold powerProd at h; injection h with h; subst h; exact ht
    | cons x xs =>
      unfold powerProd at h
      obtain ⟨_, -, h⟩ := Res.bind_eq_ok.1 h
      obtain ⟨y, h1, h⟩ := Res.bind_eq_ok.1 h
      obtain ⟨z, h2, h⟩ := Res.bind_eq_ok.1 h
      exact ih (in_cons.1 hp).2 (Term.mul_in ht (Term.pow_in (in_cons.1 hp).1 h1) h2) h

theorem expand_in {e : Env} [ClosedPow e.M P] {p : Poly} (hp : In P p) {f : Int} : ∀ {vs : List (List Int)} {r : Poly}, expand e p f vs = .ok r → In P r := by
  intro vs
  induction vs with
  | nil => intro r h; injection h with h; subst h; exact In.nil
  | cons v vs ih =>
    intro r h
    unfold expand at h
    obtain ⟨u, h1, h⟩ := Res.bind_eq_ok.1 h
    obtain ⟨us, h2, h⟩ := Res.bind_eq_ok.1 h
    injection h with h; subst h
    unfold expandOne at h1
    obtain ⟨_, -, h1⟩ := Res.bind_eq_ok.1 h1
    obtain ⟨_, -, h1⟩ := Res.bind_eq_ok.1 h1
    obtain ⟨_, -, h1⟩ := Res.bind_eq_ok.1 h1
    exact in_cons.2 ⟨powerProd_in hp (Term.ofReal_in _) h1, ih h2⟩

section
variable (hs : SortOk env.sort)
include hs

theorem normalize_in {p q : Poly} (hp : In P p) (h : normalize env p = .ok q) : In P q := by
  unfold normalize at h
  obtain ⟨r, h1, h⟩ := Res.bind_eq_ok.1 h
  refine mergeAdj_in r.length le_rfl (fun t ht => hp t ?_) h
  exact (hs _ _ h1).mem_iff.1 ht

theorem ofReal_in {c : Num.Real} {q : Poly} (h : mk' env [Term.ofReal c] = .ok q) : In P q :=
  normalize_in hs (in_cons.2 ⟨Term.ofReal_in _, In.nil⟩) h

theorem addAssign_in {p q r : Poly} (hp : In P p) (hq : In P q) (h : addAssign env p q = .ok r) : In P r :=
  normalize_in hs (in_append.2 ⟨hp, hq⟩) h

theorem subAssign_in {p q r : Poly} (hp : In P p) (hq : In P q) (h : subAssign env p q = .ok r) : In P r := by
  unfold subAssign at h
  obtain ⟨n, h1, h⟩ := Res.bind_eq_ok.1 h
  obtain ⟨u, h2, h⟩ := Res.bind_eq_ok.1 h
  exact normalize_in hs (addAssign_in hs hp (negate_in hq h1) h2) h

theorem mulAssign_in [Closed env.M P] {p q r : Poly} (hp : In P p) (hq : In P q) (h : mulAssign env p q = .ok r) : In P r := by
  unfold mulAssign at h
  obtain ⟨n, h1, h⟩ := Res.bind_eq_ok.1 h
  exact normalize_in hs (products_in hq hp h1) h

theorem add_in {p q r : Poly} (hp : In P p) (hq : In P q) (h : add env p q = .ok r) : In P r := by
  unfold add at h
  obtain ⟨a, -, h⟩ := Res.bind_eq_ok.1 h
  obtain ⟨b, -, h⟩ := Res.bind_eq_ok.1 h
  split at h
  · obtain ⟨s, -, h⟩ := Res.bind_eq_ok.1 h
    exact ofReal_in hs h
  · exact addAssign_in hs hp hq h

theorem sub_in {p q r : Poly} (hp : In P p) (hq : In P q) (h : sub env p q = .ok r) : In P r := by
  unfold sub at h
  obtain ⟨a, -, h⟩ := Res.bind_eq_ok.1 h
  obtain ⟨b, -, h⟩ := Res.bind_eq_ok.1 h
  split at h
  · obtain ⟨s, -, h⟩ := Res.bind_eq_ok.1 h
    exact ofReal_in hs h
  · exact subAssign_in hs hp hq h

theorem mul_in [Closed env.M P] {p q r : Poly} (hp : In P p) (hq : In P q) (h : mul env p q = .ok r) : In P r := by
  unfold mul at h
  obtain ⟨a, -, h⟩ := Res.bind_eq_ok.1 h
  obtain ⟨b, -, h⟩ := Res.bind_eq_ok.1 h
  split at h
  · obtain ⟨s, -, h⟩ := Res.bind_eq_ok.1 h
    exact ofReal_in hs h
  · exact mulAssign_in hs hp hq h

theorem divReal_in {p r : Poly} {c : Num.Real} (hp : In P p) (h : divReal env p c = .ok r) : In P r := by
  unfold divReal at h
  obtain ⟨n, h1, h⟩ := Res.bind_eq_ok.1 h
  exact normalize_in hs (mapM_in (fun _ _ hx hy => Term.divReal_in hx hy) hp h1) h

theorem pow_in [ClosedPow env.M P] {p r : Poly} {i : Rational} (hp : In P p) (h : pow env p i = .ok r) : In P r := by
  unfold pow at h
  obtain ⟨a, -, h⟩ := Res.bind_eq_ok.1 h
  split at h
  · obtain ⟨t, h1, h⟩ := Res.bind_eq_ok.1 h
    exact normalize_in hs (in_cons.2 ⟨Term.ofInt_in h1, In.nil⟩) h
  · obtain ⟨b, -, h⟩ := Res.bind_eq_ok.1 h
    split at h
    · injection h with h; subst h; exact hp
    · split at h
      · obtain ⟨t, h1, h⟩ := Res.bind_eq_ok.1 h
        exact normalize_in hs (in_cons.2 ⟨Term.pow_in (in_cons.1 hp).1 h1, In.nil⟩) h
      · obtain ⟨x, -, h⟩ := Res.bind_eq_ok.1 h
        split at h
        · obtain ⟨y, -, h⟩ := Res.bind_eq_ok.1 h
          exact ofReal_in hs h
        · obtain ⟨_, -, h⟩ := Res.bind_eq_ok.1 h
          obtain ⟨_, -, h⟩ := Res.bind_eq_ok.1 h
          obtain ⟨_, -, h⟩ := Res.bind_eq_ok.1 h
          obtain ⟨_, -, h⟩ := Res.bind_eq_ok.1 h
          obtain ⟨u, h1, h⟩ := Res.bind_eq_ok.1 h
          exact normalize_in hs (expand_in hp h1) h
end
end Poly

/-! ### fractions -/
namespace Frac
variable (hs : SortOk env.sort)

theorem scaleAll_in {e : Env} [Closed e.M P]  {m : Int} {p q : Poly} (hp : Poly.In P p) (h : scaleAll e m p = .ok q) : Poly.In P q := by
  refine Poly.mapM_in (fun t u ht hu => ?_) hp h
  obtain ⟨x, h1, hu⟩ := Res.bind_eq_ok.1 hu
  exact Term.mul_in ht (Term.ofInt_in h1) hu

include hs
theorem normalize_in [Closed env.M P] {f g : Frac} (hf : f.In P) (h : normalize env f = .ok g) : g.In P := by
  unfold normalize at h
  obtain ⟨n, h1, h⟩ := Res.bind_eq_ok.1 h
  obtain ⟨d, h2, h⟩ := Res.bind_eq_ok.1 h
  obtain ⟨_, -, h⟩ := Res.bind_eq_ok.1 h
  obtain ⟨_, -, h⟩ := Res.bind_eq_ok.1 h
  obtain ⟨n', h3, h⟩ := Res.bind_eq_ok.1 h
  obtain ⟨d', h4, h⟩ := Res.bind_eq_ok.1 h
  have hn := scaleAll_in (Poly.normalize_in hs hf.1 h1) h3
  have hd := scaleAll_in (Poly.normalize_in hs hf.2 h2) h4
  split at h
  · obtain ⟨_, -, h⟩ := Res.bind_eq_ok.1 h
    obtain ⟨_, -, h⟩ := Res.bind_eq_ok.1 h
    obtain ⟨_, -, h⟩ := Res.bind_eq_ok.1 h
    obtain ⟨o, -, h⟩ := Res.bind_eq_ok.1 h
    cases o with
    | none => injection h with h; subst h; exact ⟨hn, hd⟩
    | some g =>
      obtain ⟨_, -, h⟩ := Res.bind_eq_ok.1 h
      obtain ⟨_, h5, h⟩ := Res.bind_eq_ok.1 h
      obtain ⟨_, h6, h⟩ := Res.bind_eq_ok.1 h
      injection h with h; subst h
      exact ⟨Poly.divReal_in hs hn h5, Poly.divReal_in hs hd h6⟩
  · cases h

theorem ofTerm_in [Closed env.M P] {t : Term} {f : Frac} (ht : Term.In P t) (h : ofTerm env t = .ok f) : f.In P := by
  unfold ofTerm ofPoly onePoly at h
  obtain ⟨p, h1, h⟩ := Res.bind_eq_ok.1 h
  obtain ⟨d, h2, h⟩ := Res.bind_eq_ok.1 h
  obtain ⟨o, h3, h2⟩ := Res.bind_eq_ok.1 h2
  exact normalize_in hs (f := ⟨p, d⟩) ⟨Poly.normalize_in hs (Poly.in_cons.2 ⟨ht, Poly.In.nil⟩) h1,
    Poly.normalize_in hs (Poly.in_cons.2 ⟨Term.ofInt_in h3, Poly.In.nil⟩) h2⟩ h

theorem mk2_in [Closed env.M P] {n d : Poly} {f : Frac} (hn : Poly.In P n) (hd : Poly.In P d) (h : mk2 env n d = .ok f) : f.In P := by
  unfold mk2 at h
  obtain ⟨_, -, h⟩ := Res.bind_eq_ok.1 h
  obtain ⟨_, -, h⟩ := Res.bind_eq_ok.1 h
  exact normalize_in hs ⟨hn, hd⟩ h

theorem add_in [Closed env.M P] {a b f : Frac} (ha : a.In P) (hb : b.In P) (h : add env a b = .ok f) : f.In P := by
  unfold add at h
  obtain ⟨x, -, h⟩ := Res.bind_eq_ok.1 h
  split at h
  · obtain ⟨n, h1, h⟩ := Res.bind_eq_ok.1 h
    injection h with h; subst h
    exact ⟨Poly.addAssign_in hs ha.1 hb.1 h1, ha.2⟩
  · obtain ⟨x, h1, h⟩ := Res.bind_eq_ok.1 h
    obtain ⟨y, h2, h⟩ := Res.bind_eq_ok.1 h
    obtain ⟨n, h3, h⟩ := Res.bind_eq_ok.1 h
    obtain ⟨d, h4, h⟩ := Res.bind_eq_ok.1 h
    exact normalize_in hs ⟨Poly.add_in hs (Poly.mul_in hs ha.1 hb.2 h1) (Poly.mul_in hs hb.1 ha.2 h2) h3,
      Poly.mulAssign_in hs ha.2 hb.2 h4⟩ h

theorem negate_in [Closed env.M P] {a f : Frac} (ha : a.In P) (h : negate env a = .ok f) : f.In P := by
  unfold negate at h
  obtain ⟨n, h1, h⟩ := Res.bind_eq_ok.1 h
  exact mk2_in hs (Poly.negate_in ha.1 h1) ha.2 h

theorem sub_in [Closed env.M P] {a b f : Frac} (ha : a.In P) (hb : b.In P) (h : sub env a b = .ok f) : f.In P := by
  unfold sub at h
  obtain ⟨n, h1, h⟩ := Res.bind_eq_ok.1 h
  exact add_in hs ha (negate_in hs hb h1) h

theorem subAssign_in [Closed env.M P] {a b f : Frac} (ha : a.In P) (hb : b.In P) (h : subAssign env a b = .ok f) : f.In P := by
  unfold subAssign at h
  obtain ⟨n, h1, h⟩ := Res.bind_eq_ok.1 h
  obtain ⟨r, h2, h⟩ := Res.bind_eq_ok.1 h
  exact normalize_in hs (add_in hs ha (negate_in hs hb h1) h2) h

theorem mul_in [Closed env.M P] {a b f : Frac} (ha : a.In P) (hb : b.In P) (h : mul env a b = .ok f) : f.In P := by
  unfold mul at h
  obtain ⟨n, h1, h⟩ := Res.bind_eq_ok.1 h
  obtain ⟨d, h2, h⟩ := Res.bind_eq_ok.1 h
  exact normalize_in hs ⟨Poly.mulAssign_in hs ha.1 hb.1 h1, Poly.mulAssign_in hs ha.2 hb.2 h2⟩ h

theorem div_in [Closed env.M P] {a b f : Frac} (ha : a.In P) (hb : b.In P) (h : div env a b = .ok f) : f.In P := by
  unfold div at h
  obtain ⟨_, -, h⟩ := Res.bind_eq_ok.1 h
  obtain ⟨_, -, h⟩ := Res.bind_eq_ok.1 h
  obtain ⟨n, h1, h⟩ := Res.bind_eq_ok.1 h
  obtain ⟨d, h2, h⟩ := Res.bind_eq_ok.1 h
  exact normalize_in hs ⟨Poly.mulAssign_in hs ha.1 hb.2 h1, Poly.mulAssign_in hs ha.2 hb.1 h2⟩ h

theorem pow_in [ClosedPow env.M P] {a f : Frac} {i : Rational} (ha : a.In P) (h : pow env a i = .ok f) : f.In P := by
  unfold pow at h
  obtain ⟨o, -, h⟩ := Res.bind_eq_ok.1 h
  cases o with
  | some r =>
    obtain ⟨x, -, h⟩ := Res.bind_eq_ok.1 h
    exact ofTerm_in hs (Term.ofReal_in _) h
  | none =>
    obtain ⟨n, h1, h⟩ := Res.bind_eq_ok.1 h
    obtain ⟨d, h2, h⟩ := Res.bind_eq_ok.1 h
    exact normalize_in hs ⟨Poly.pow_in hs ha.1 h1, Poly.pow_in hs ha.2 h2⟩ h

theorem substitute_in [Closed env.M P] {s : List (List Char × Num.Real)} {a f : Frac} (ha : a.In P) (h : substitute env s a = .ok f) :
    f.In (fun p => P p ∧ p.1 ∉ s.map (·.1)) := by
  unfold substitute at h
  obtain ⟨n, h1, h⟩ := Res.bind_eq_ok.1 h
  obtain ⟨d, h2, h⟩ := Res.bind_eq_ok.1 h
  obtain ⟨r, h3, h⟩ := Res.bind_eq_ok.1 h
  obtain ⟨_, -, h⟩ := Res.bind_eq_ok.1 h
  obtain ⟨_, -, h⟩ := Res.bind_eq_ok.1 h
  injection h with h; subst h
  haveI := Closed.and (M := env.M) (Q := fun x => x ∉ s.map (·.1)) ‹Closed env.M P›
  exact normalize_in hs ⟨Poly.substitute_in ha.1 h1, Poly.substitute_in ha.2 h2⟩ h3

end Frac

/-! ### trees -/
namespace Node
variable (hs : SortOk env.sort)
include hs

theorem evalOp_in [Closed env.M P] {c : Char} (hc : c ≠ '^' ∨ ClosedPow env.M P) {a b f : Frac} (ha : a.In P) (hb : b.In P) (h : evalOp env c a b = .ok (some f)) : f.In P := by
  unfold evalOp at h
  split at h
  · obtain ⟨r, h1, h⟩ := Res.bind_eq_ok.1 h
    cases h
    exact Frac.add_in hs ha hb h1
  split at h
  · obtain ⟨r, h1, h⟩ := Res.bind_eq_ok.1 h
    cases h
    exact Frac.sub_in hs ha hb h1
  split at h
  · obtain ⟨r, h1, h⟩ := Res.bind_eq_ok.1 h
    cases h
    exact Frac.mul_in hs ha hb h1
  split at h
  · obtain ⟨r, h1, h⟩ := Res.bind_eq_ok.1 h
    cases h
    exact Frac.div_in hs ha hb h1
  split at h
  · obtain ⟨o, -, h⟩ := Res.bind_eq_ok.1 h
    cases o with
    | none => cases h
    | some p =>
      obtain ⟨x, -, h⟩ := Res.bind_eq_ok.1 h
      cases x with
      | true =>
        obtain ⟨q, -, h⟩ := Res.bind_eq_ok.1 h
        obtain ⟨r, h1, h⟩ := Res.bind_eq_ok.1 h
        cases h
        rcases hc with hc | hc
        · exact absurd ‹c = '^'› hc
        · exact Frac.pow_in hs ha h1
      | false => cases h
  · cases h

theorem tryEval_in [Closed env.M P] {n : Node} (hc : n.NoPow ∨ ClosedPow env.M P) (hn : n.In P) {f : Frac} (h : tryEval env n = .ok (some f)) : f.In P := by
  induction n generalizing f with
  | frac g => cases h; exact hn
  | op c l r il ir =>
    unfold tryEval at h
    obtain ⟨lv, h1, h⟩ := Res.bind_eq_ok.1 h
    obtain ⟨rv, h2, h⟩ := Res.bind_eq_ok.1 h
    cases lv with
    | none => cases h
    | some a =>
      cases rv with
      | none => cases h
      | some b => exact evalOp_in hs (hc.imp_left And.left) (il (hc.imp_left fun h => h.2.1) hn.1 h1) (ir (hc.imp_left fun h => h.2.2) hn.2 h2) h

theorem normalize_in [Closed env.M P] {n m : Node} (hc : n.NoPow ∨ ClosedPow env.M P) (hn : n.In P) (h : normalize env n = .ok m) : m.In P := by
  induction n generalizing m with
  | frac g => cases h; exact hn
  | op c l r il ir =>
    unfold normalize at h
    obtain ⟨lv, h1, h⟩ := Res.bind_eq_ok.1 h
    obtain ⟨rv, h2, h⟩ := Res.bind_eq_ok.1 h
    have fb : ∀ m, (do
        let r ← normalize env r
        let l ← normalize env l
        .ok (Node.op c l r) : Res Node) = .ok m → m.In P := by
      intro m h
      obtain ⟨r', h3, h⟩ := Res.bind_eq_ok.1 h
      obtain ⟨l', h4, h⟩ := Res.bind_eq_ok.1 h
      cases h
      exact ⟨il (hc.imp_left fun h => h.2.1) hn.1 h4, ir (hc.imp_left fun h => h.2.2) hn.2 h3⟩
    cases lv with
    | none => exact fb m h
    | some a =>
      cases rv with
      | none => exact fb m h
      | some b =>
        have ha := tryEval_in hs (hc.imp_left fun h => h.2.1) hn.1 h1
        have hb := tryEval_in hs (hc.imp_left fun h => h.2.2) hn.2 h2
        simp only at h
        split at h
        · obtain ⟨x, h3, h⟩ := Res.bind_eq_ok.1 h
          cases h
          exact Frac.add_in hs ha hb h3
        split at h
        · obtain ⟨x, h3, h⟩ := Res.bind_eq_ok.1 h
          cases h
          exact Frac.sub_in hs ha hb h3
        split at h
        · obtain ⟨x, h3, h⟩ := Res.bind_eq_ok.1 h
          cases h
          exact Frac.mul_in hs ha hb h3
        split at h
        · obtain ⟨x, h3, h⟩ := Res.bind_eq_ok.1 h
          cases h
          exact Frac.div_in hs ha hb h3
        split at h
        · obtain ⟨p, -, h⟩ := Res.bind_eq_ok.1 h
          obtain ⟨q, -, h⟩ := Res.bind_eq_ok.1 h
          cases q with
          | none =>
            obtain ⟨l', h4, h⟩ := Res.bind_eq_ok.1 h
            obtain ⟨r', h3, h⟩ := Res.bind_eq_ok.1 h
            cases h
            exact ⟨il (hc.imp_left fun h => h.2.1) hn.1 h4, ir (hc.imp_left fun h => h.2.2) hn.2 h3⟩
          | some q =>
            obtain ⟨x, h3, h⟩ := Res.bind_eq_ok.1 h
            cases h
            rcases hc with hc | hc
            · exact absurd ‹c = '^'› hc.1
            · exact Frac.pow_in hs ha h3
        · cases h

theorem substitute_in [ClosedPow env.M P] {s : List (List Char × Num.Real)} {n m : Node} (hn : n.In P) (h : substitute env s n = .ok m) :
    m.In (fun p => P p ∧ p.1 ∉ s.map (·.1)) := by
  induction n generalizing m with
  | frac g =>
    unfold substitute at h
    obtain ⟨f, h1, h⟩ := Res.bind_eq_ok.1 h
    cases h
    exact Frac.substitute_in hs hn h1
  | op c l r il ir =>
    unfold substitute at h
    obtain ⟨l', h1, h⟩ := Res.bind_eq_ok.1 h
    obtain ⟨r', h2, h⟩ := Res.bind_eq_ok.1 h
    have hc := ClosedPow.and (M := env.M) (Q := fun x => x ∉ s.map (·.1)) ‹ClosedPow env.M P›
    haveI := hc.toClosed
    exact normalize_in hs (n := .op c l' r') (Or.inr hc) ⟨il hn.1 h1, ir hn.2 h2⟩ h

theorem ofExpr_in [Closed env.M P] {e : Parser.Expr} {n : Node} (he : ∀ x w, Parser.Leaf.sym x ∈ e.leaves → Rational.ofInt env.M 1 = .ok w → P (x, w))
    (h : ofExpr env e = .ok n) : n.In P := by
  induction e generalizing n with
  | leaf l =>
    unfold ofExpr at h
    obtain ⟨f, h1, h⟩ := Res.bind_eq_ok.1 h
    cases h
    cases l with
    | num q =>
      obtain ⟨r, -, h1⟩ := Res.bind_eq_ok.1 h1
      exact Frac.ofTerm_in hs (Term.ofReal_in _) h1
    | sym x =>
      obtain ⟨o, -, h1⟩ := Res.bind_eq_ok.1 h1
      obtain ⟨t, h2, h1⟩ := Res.bind_eq_ok.1 h1
      unfold Term.ofSym at h2
      obtain ⟨w, h3, h2⟩ := Res.bind_eq_ok.1 h2
      cases h2
      refine Frac.ofTerm_in hs ?_ h1
      exact Syms.in_cons.2 ⟨he x w (by simp [Parser.Expr.leaves]) h3, Syms.In.nil⟩
  | node c a b ia ib =>
    unfold ofExpr at h
    obtain ⟨x, h1, h⟩ := Res.bind_eq_ok.1 h
    obtain ⟨y, h2, h⟩ := Res.bind_eq_ok.1 h
    cases h
    exact ⟨ia (fun x w hl => he x w (by simp [Parser.Expr.leaves, hl])) h1, ib (fun x w hl => he x w (by simp [Parser.Expr.leaves, hl])) h2⟩

end Node
end Symxx.Sym

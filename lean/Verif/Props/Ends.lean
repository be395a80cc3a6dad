import Verif.Cli.Ends
import Verif.Props.Cli
/-!
# C112: every line of a session comes to an end

`Res.fuel` is the outcome of a computation that runs forever, `Next.hang` that of a line that does. The steps outside the model (the
factorisation, the floating point, `std::sort`, `std::stold`) are assumed to come to an end (`CEnv.Ends`, `FEnv.Ends`). The loops of the
code that have no bound of their own are `while (exp >= index)` (num.hpp 551), the recursion of `Real::pow` (num.hpp 473), that of
`solve_variable_eq` (frac.hpp 346-365) and the tokeniser (parser.hpp 165); all of them end because the index of every root that a session
builds is positive, because a negated exponent is negative at most once more, because the enumeration is asked for two unknowns or more, and
because a token consumes a character. With a root of index 0 the first loop never ends (`C112_zero_index`).
-/
namespace Symxx.Num
open Symxx.Res

theorem runLoop_ne : ∀ (l : List Nat) (x e : Nat) (m : FMap), runLoop (x :: l) e m ≠ [] := by
  intro l
  induction l with
  | nil =>
    intro x e m
    unfold runLoop
    cases m with
    | nil => simp [FMap.push]
    | cons p m => unfold FMap.push; split_ifs <;> simp
  | cons y l ih =>
    intro x e m
    unfold runLoop
    split
    · exact ih _ _ _
    · exact ih _ _ _

/-- with index 0 the loop of num.hpp 551-559 is never left: after any number of iterations it has not returned. -/
theorem Real.stripWhile_zero_index {env : Env} {vs : List Nat} : ∀ (f : Nat) {e : Nat} {rad : Int} {coe : Rational} {x : Int × Rational},
    stripWhile env 0 vs f e rad coe ≠ .ok x := by
  intro f
  induction f with
  | zero => intro e rad coe x h; cases h
  | succ f ih =>
    intro e rad coe x h
    unfold stripWhile at h
    rw [if_pos (Nat.zero_le _)] at h
    obtain ⟨y, -, h⟩ := Res.bind_eq_ok.1 h
    exact ih h

end Symxx.Num

namespace Symxx.Cli
open Symxx.Num Symxx.Sym Symxx.Res

/-- whatever is typed, no line of a session runs forever. -/
theorem C112_session {E : CEnv} (hE : E.Ends) (c : Table E.LD) (n : Nat) (input : List Char) : (mainloop E n ⟨[], c⟩ input).1 ≠ .hang :=
  loop_p hE fun _ h => by simp at h

/-- the state of a session after any lines keeps this property: the bodies of its functions have positive indices, hence every further line
comes to an end too, and every line keeps it. -/
theorem C112_line {E : CEnv} (hE : E.Ends) {s : St E} (hs : s.Ix) (line : List Char) :
    (dispatch E line s).1 ≠ .fuel ∧ (dispatch E line s).2.1.Ix :=
  ⟨(dispatch_p hE s hs).1.1, (dispatch_p hE s hs).2⟩

/-- the operations of the library on roots of positive index come to an end, and the roots they return have positive indices. -/
theorem C112_real {env : Env} (he : env.Ends) {a b : Num.Real} (ha : 1 ≤ a.index) (hb : 1 ≤ b.index) {p : Rational} (hp : p.Exp env.M) :
    ∀ x ∈ [Real.normalize env a, Real.add env a b, Real.sub env a b, Real.mul env a b, Real.div env a b, Real.negate env a, Real.inverse env a,
      Real.pow env a p], x ≠ .fuel ∧ ∀ r, x = .ok r → 1 ≤ r.index := by
  intro x hx
  simp only [List.mem_cons, List.not_mem_nil, or_false] at hx
  rcases hx with rfl | rfl | rfl | rfl | rfl | rfl | rfl | rfl
  · exact Real.normalize_p he ha
  · exact Real.add_p he ha
  · exact Real.sub_p he ha hb
  · exact Real.mul_p he
  · exact Real.div_p he
  · exact Real.negate_p he ha
  · exact Real.inverse_p ha
  · exact Real.pow_p he ha hp

/-- reading, substituting, normalising, evaluating and printing an expression come to an end. -/
theorem C112_expr {env : FEnv} (he : env.Ends) {dec : List Char → Res Rational} (hd : ∀ s, dec s ≠ .fuel) (s : List Char)
    {b : List (List Char × Num.Real)} (hb : ∀ p ∈ b, 1 ≤ p.2.index) :
    Node.ofText env dec s ≠ .fuel ∧ ∀ n, Node.ofText env dec s = .ok n → Node.substitute env b n ≠ .fuel ∧
      ∀ m, (m = n ∨ Node.substitute env b n = .ok m) → Node.normalize env m ≠ .fuel ∧ Node.tryEval env m ≠ .fuel ∧
        ∀ k, (k = m ∨ Node.normalize env m = .ok k) → Node.toStr env.toEnv k ≠ .fuel ∧ Node.toTex env.toEnv k ≠ .fuel := by
  have h0 := Node.ofText_p he hd (s := s)
  refine ⟨h0.1, fun n hn => ?_⟩
  have h1 := h0.2 n hn
  have h2 := Node.substitute_p he hb h1
  refine ⟨h2.1, fun m hm => ?_⟩
  have h3 : m.Ix env.M := by
    rcases hm with rfl | hm
    · exact h1
    · exact h2.2 m hm
  have h4 := Node.normalize_p he h3
  refine ⟨h4.1, (Node.tryEval_p he h3).1, fun k hk => ?_⟩
  have h5 : k.Ix env.M := by
    rcases hk with rfl | hk
    · exact h3
    · exact h4.2 k hk
  exact ⟨(Node.toStr_p he h5).1, (Node.toTex_p he.toEnds h5).1⟩

/-- a root of index 0 of a number with a prime factor is never returned. -/
theorem C112_zero_index {env : Env} {k : Int} {p : Nat} {ps : List Nat} (h : env.fac k = .ok (p :: ps)) (c : Rational) (r : Num.Real) :
    Real.mk3 env c ⟨k, 1⟩ 0 ≠ .ok r := by
  intro e
  unfold Real.mk3 Real.normalize decompose at e
  simp only [Rational.isInt, decide_true, Bool.not_true, Bool.false_eq_true, if_false, Res.bind_ok, h] at e
  obtain ⟨x, hx, -⟩ := Res.bind_eq_ok.1 e
  obtain ⟨q, m, hq⟩ := List.exists_cons_of_ne_nil (runLoop_ne ps p 1 [])
  rw [hq] at hx
  obtain ⟨e', vs⟩ := q
  unfold Real.stripAll at hx
  obtain ⟨y, hy, -⟩ := Res.bind_eq_ok.1 hx
  exact Real.stripWhile_zero_index _ hy

/-! ### instances -/

theorem stold_ends {F : FloatFmt} (s : List Char) : Num.stold F s ≠ .fuel := by
  unfold Num.stold
  split
  · simp
  · split_ifs <;> simp

theorem insertM_ends {env : Env} (he : env.Ends) {t : Term} : ∀ {p : Poly}, insertM env t p ≠ .fuel := by
  have hb : ∀ {a b : Term}, Post (Term.before env a b) fun _ => True := by
    intro a b
    unfold Term.before
    refine .bind Syms.eq_p fun _ _ => .ite ?_ (.ite (.ok trivial) (.bind Rational.ne_p fun _ _ => .ite Rational.gt_p (Real.gt_p he)))
    generalize b.syms = s
    generalize a.syms = u
    induction s generalizing u with
    | nil => cases u <;> exact .ok trivial
    | cons p s ih =>
      cases u with
      | nil => exact .ok trivial
      | cons q u =>
        unfold Syms.lt
        exact .ite (.ok trivial) (.ite (.ok trivial) (.bind Rational.lt_p fun _ _ => .ite (.ok trivial) (.bind Rational.lt_p fun _ _ =>
          .ite (.ok trivial) (ih u))))
  intro p
  have : Post (insertM env t p) fun _ => True := by
    induction p with
    | nil => exact .ok trivial
    | cons u p ih => unfold insertM; exact .bind hb fun _ _ => .ite (.ok trivial) (.bind ih fun _ _ => .ok trivial)
  exact this.1

theorem sortM_ends {env : Env} (he : env.Ends) (p : Poly) : sortM env p ≠ .fuel := by
  have : Post (sortM env p) fun _ => True := by
    induction p with
    | nil => exact .ok trivial
    | cons t p ih => unfold sortM; exact .bind ih fun _ _ => .nf (insertM_ends he)
  exact this.1

theorem envI64_ends : Real.envI64.Ends where
  powT _ _ _ h := by
    simp only [Real.envI64, Fl.ideal] at h
    split_ifs at h
  divPow _ _ _ h := by cases h
  mulPow _ _ _ h := by cases h
  ofPow _ _ h := by cases h
  fac n := by
    show (if 0 < n then Res.ok (Symxx.Num.Real.trial (2 * n.toNat) n.toNat 2) else .ub "empty range") ≠ .fuel
    split <;> simp

theorem fenv64_ends : fenv64.Ends where
  toEnds := envI64_ends
  sort := sortM_ends envI64_ends
  perm := fenv64_sort

theorem cenv64_ends : cenv64.Ends where
  toF := fenv64_ends
  dec s := by
    show decFloat x87 fenv64.M 18 noSpecial s ≠ .fuel
    unfold decFloat
    split
    · simp [noSpecial]
    · refine (Post.bind (R := fun _ => True) (.nf (stold_ends s)) fun x _ => ?_).1
      unfold Rational.ofFloat
      extract_lets
      exact .bind Rational.chk_p fun _ _ => Rational.normalize_p.triv
  dTrunc d := by
    cases d with
    | none => simp [cenv64, flt64]
    | some x => exact (Rational.chk_p (M := 9223372036854775807)).1
  stold s := by
    show (Num.stold x87 s >>= fun q => Res.ok (some q)) ≠ .fuel
    exact (Post.bind (R := fun _ => True) (.nf (stold_ends s)) fun _ _ => .ok trivial).1

/-- no input whatsoever makes the 64-bit program of the examples hang. -/
theorem C112_cenv64 (n : Nat) (input : List Char) : (mainloop cenv64 n start input).1 ≠ .hang := C112_session cenv64_ends [] n input

/-- `nth_root(0, 8)`: the loop does not end; `nth_root(3, 8)` is 2. -/
theorem C112_example : Real.nthRoot fenv64.toEnv 0 ⟨8, 1⟩ = .fuel ∧ Real.nthRoot fenv64.toEnv 3 ⟨8, 1⟩ = .ok ⟨1, ⟨1, 1⟩, ⟨2, 1⟩⟩ ∧
    fenv64.fac 8 = .ok [2, 2, 2] := by decide +kernel

example (r : Num.Real) := C112_zero_index (env := fenv64.toEnv) C112_example.2.2 ⟨1, 1⟩ r
example := C112_real (env := fenv64.toEnv) envI64_ends (a := ⟨3, ⟨2, 1⟩, ⟨1, 1⟩⟩) (b := ⟨2, ⟨5, 1⟩, ⟨7, 3⟩⟩) (by norm_num) (by norm_num)
  (p := ⟨-1, 2⟩) ⟨by norm_num, by decide⟩
example := C112_expr fenv64_ends cenv64_ends.dec "x^(1/2)+_2".toList (b := [(['x'], ⟨3, ⟨2, 1⟩, ⟨1, 1⟩⟩)]) (by simp)
example := C112_line cenv64_ends (s := start) (fun _ h => by simp [start] at h) "func f(x)=x^2".toList

end Symxx.Cli

import Verif.Cli.Calc
import Verif.Props.Cli
import Mathlib.Data.List.TakeWhile
/-!
# C77–C79: calls, and the session as a calculator over integers

`Calls`, `Args`, `IntArgs`, `IsExpr` are in `Verif/Cli/Spec.lean`; `intVal κ e` (`Verif/Expr/Spec.lean`) is the integer an
expression denotes when the symbol `x` is the integer `κ x`.
-/
namespace Symxx.Cli
open Symxx.Num Symxx.Sym Cmd

variable {E : CEnv} {B : Nat}

/-! ### C77 -/

/-- the wrong number of arguments: an error, nothing is printed, nothing changes. -/
theorem C77_count {line name inside : List Char} {s : St E} {fn : Fn} {as : List Num.Real} (hc : Calls line name inside)
    (hf : s.funcs.find name = some fn) (ha : Args E inside as) (hl : as.length ≠ fn.params.length) :
    dispatch E line s = (.throw ("Expected " ++ toString fn.params.length ++ " arguments"), s, []) := by
  rw [dispatch_other (calls_word hc)]
  refine then_throw ?_
  rw [cmdOther_call hc hf, cmdCall_args hf ha, if_neg hl]

/-- a call prints the normal form of the body with the arguments for the parameters (for a parameter listed twice, the last
argument); definitions stay as they are, and the text behind `)` has no effect. -/
theorem C77_call {line name inside : List Char} {s : St E} {fn : Fn} {as : List Num.Real} (hc : Calls line name inside)
    (hf : s.funcs.find name = some fn) (ha : Args E inside as) (hl : as.length = fn.params.length) {n m : Node} {t : List Char}
    (h1 : Node.substitute E.f (fn.params.zip as).reverse fn.body = .ok n) (h2 : Node.normalize E.f n = .ok m)
    (h3 : Node.toStr E.f.toEnv m = .ok t) :
    (dispatch E line s).2.1 = s ∧ t <+: (dispatch E line s).2.2 ∧
      ((dispatch E line s).1 = .ok false → (dispatch E line s).2.2 = t ++ ['\n'] ∨
        ∃ v, Node.tryEvalLD E.flt s.constants m = .ok (some v) ∧ (dispatch E line s).2.2 = t ++ " = ".toList ++ E.showLD v ++ ['\n']) := by
  have hd : dispatch E line s = (do printResult E n; Cmd.pure false : Cmd E Bool) s := by
    rw [dispatch_other (calls_word hc), bind_def, bind_def, cmdOther_call hc hf, cmdCall_args hf ha, if_pos hl, lift_bind, h1]
  have hp : printResult E n s = (do
      print t
      let b ← lift (isInteger E m)
      if b then print ['\n']
      else do
        let s ← get
        let v ← lift (Node.tryEvalLD E.flt s.constants m)
        match v with
        | some v => print (" = ".toList ++ E.showLD v ++ ['\n'])
        | none => print ['\n'] : Cmd E Unit) s := by
    unfold printResult
    rw [lift_bind, h2]
    simp only
    rw [lift_bind, h3]
    rfl
  have hg : ∀ f : St E → Cmd E Unit, (Cmd.get >>= f) s = f s s := fun f => by
    rw [bind_def]; rfl
  have ht : ∀ c : Cmd E Unit, (do print t; c) s = ((c s).1, (c s).2.1, t ++ (c s).2.2) := fun c => by
    rw [bind_def]; rfl
  rw [hd]
  obtain ⟨t1, t2, t3⟩ := then_false (printResult E n) s
  rw [t1]
  refine ⟨keeps_printResult n s, ?_, fun ho => ?_⟩
  · rw [hp, ht]; exact List.prefix_append _ _
  · have ho : (printResult E n s).1 = .ok () := by
      rw [bind_def] at ho
      generalize printResult E n s = r at ho
      obtain ⟨r, s', o⟩ := r
      cases r <;> simp_all
    rw [hp, ht] at ho ⊢
    simp only at ho ⊢
    rw [lift_bind] at ho ⊢
    cases hi : isInteger E m with
    | ok b =>
      rw [hi] at ho
      cases b with
      | true => left; rfl
      | false =>
        simp only [Bool.false_eq_true, if_false] at ho ⊢
        rw [hg, lift_bind] at ho ⊢
        cases hv : Node.tryEvalLD E.flt s.constants m with
        | ok v =>
          cases v with
          | none => left; rfl
          | some v => right; exact ⟨v, rfl, by simp [Cmd.print]⟩
        | _ => rw [hv] at ho; cases ho
    | _ => rw [hi] at ho; cases ho

/-- what is printed has the value of the body at the arguments, in exact runs. -/
theorem C77_value_partial (hg : E.f.toEnv.Base B) (hs : SortOk E.f.sort) {fn : Fn} {as : List Num.Real} (hn : fn.body.WF)
    (ho : fn.body.SubstOk (fn.params.zip as).reverse) {n m : Node}
    (h1 : Node.substitute (E.f.checked B) (fn.params.zip as).reverse fn.body = .ok n)
    (h2 : Node.normalize (E.f.checked B) n = .ok m) :
    Node.substitute E.f (fn.params.zip as).reverse fn.body = .ok n ∧ Node.normalize E.f n = .ok m ∧
      ∀ ρ, (∀ x, 0 < ρ x) → ∀ v, fn.body.sem (override (fn.params.zip as).reverse ρ) = some v → m.sem ρ = some v := by
  obtain ⟨a1, a2, a3⟩ := C70_substitute_partial hg hs hn ho h1
  obtain ⟨b1, -, b3⟩ := C56_normalize_partial hg hs a2 h2
  exact ⟨a1, b1, fun ρ hρ v hv => b3 ρ hρ v (a3 ρ hρ v hv)⟩

/-- `func f(x,y) = x^2-y`. -/
def fxy : St cenv64 := after start "func f(x,y) = x^2-y"
/-- calls: `f(3,2)`, blanks do not fit into the first word, the text behind `)` is ignored, an argument is read as far as it
is a number, one comma at the end is allowed. -/
theorem C77_examples : does fxy "f(3,2)" = (.ok false, "7\n".toList) ∧ does fxy "f(3,2)+f(1,1)" = (.ok false, "7\n".toList) ∧
    does fxy "f(3x,2)" = (.ok false, "7\n".toList) ∧ does fxy "f(3,2,)" = (.ok false, "7\n".toList) ∧
    does fxy "f(q,2)" = (.throw "Invaild string.", []) ∧ does fxy "f(3)" = (.throw "Expected 2 arguments", []) := by
  decide +kernel

theorem fxy_find : fxy.funcs.find ['f'] = some ⟨[['x'], ['y']], .frac ⟨[mono (-1) 1 ['y'] 1, mono 1 1 ['x'] 2], [cst 1]⟩⟩ := by
  decide +kernel
theorem calls_example : Calls "f(3,1/2)+1".toList ['f'] "3,1/2".toList :=
  ⟨"+1".toList, by decide, by decide, by decide⟩
theorem args_example : Args cenv64 "3,1/2".toList [re 3 1, ⟨1, ⟨1, 1⟩, ⟨1, 2⟩⟩] :=
  splitArgs_iff.1 (by decide +kernel)
example := C77_count (E := cenv64) (line := "f(3)".toList) (name := ['f']) (inside := ['3'])
  ⟨[], by decide, by decide, by decide⟩ fxy_find (splitArgs_iff.1 (by decide +kernel : splitArgs cenv64 ['3'] [] = .ok [re 3 1]))
  (by decide)
theorem call_runs : Node.substitute (cenv64.f.checked (2 ^ 53)) ([['x'], ['y']].zip [re 3 1, ⟨1, ⟨1, 1⟩, ⟨1, 2⟩⟩]).reverse
      (.frac ⟨[mono (-1) 1 ['y'] 1, mono 1 1 ['x'] 2], [cst 1]⟩) = .ok (.frac ⟨[cst 17], [cst 2]⟩) ∧
    Node.normalize (cenv64.f.checked (2 ^ 53)) (.frac ⟨[cst 17], [cst 2]⟩) = .ok (.frac ⟨[cst 17], [cst 2]⟩) ∧
    Node.substitute cenv64.f ([['x'], ['y']].zip [re 3 1, ⟨1, ⟨1, 1⟩, ⟨1, 2⟩⟩]).reverse
      (.frac ⟨[mono (-1) 1 ['y'] 1, mono 1 1 ['x'] 2], [cst 1]⟩) = .ok (.frac ⟨[cst 17], [cst 2]⟩) ∧
    Node.normalize cenv64.f (.frac ⟨[cst 17], [cst 2]⟩) = .ok (.frac ⟨[cst 17], [cst 2]⟩) ∧
    Node.toStr cenv64.f.toEnv (.frac ⟨[cst 17], [cst 2]⟩) = .ok "17/2".toList := by decide +kernel
example := C77_call (E := cenv64) calls_example fxy_find args_example rfl call_runs.2.2.1 call_runs.2.2.2.1 call_runs.2.2.2.2

theorem args_substOk (t : Term) : t.SubstOk ([['x'], ['y']].zip [re 3 1, ⟨1, ⟨1, 1⟩, ⟨1, 2⟩⟩]).reverse := by
  intro p hp x hx
  have : x = re 3 1 ∨ x = re 1 2 := by
    unfold Term.lookup at hx
    simp only [List.zip_cons_cons, List.zip_nil_right, List.reverse_cons, List.reverse_nil, List.nil_append, List.cons_append,
      List.find?_cons, List.find?_nil] at hx
    split at hx
    · right; simpa [re] using hx.symm
    · split at hx
      · left; simpa using hx.symm
      · simp at hx
  rcases this with rfl | rfl
  · exact ⟨re_valid 3 1 (by norm_num), Or.inl (by norm_num [re, Num.Real.val, Rational.val])⟩
  · exact ⟨re_valid 1 2 (by norm_num), Or.inl (by norm_num [re, Num.Real.val, Rational.val])⟩
example := C77_value_partial (E := cenv64) fenv64_good.toBase fenv64_sort
  (fn := ⟨[['x'], ['y']], .frac ⟨[mono (-1) 1 ['y'] 1, mono 1 1 ['x'] 2], [cst 1]⟩⟩)
  (frac_wf (wf2 (mono_wf (-1) 1 (by norm_num) _ _) (mono_wf 1 1 (by norm_num) _ _)) (Poly.wf_singleton (cst_wf 1)))
  ⟨fun t _ => args_substOk t, fun t _ => args_substOk t⟩ call_runs.1 call_runs.2.1

/-! ### C78 -/

/-- the session as a calculator: a line that is an expression over integers, `+`, `-`, `*` and natural powers, whose size fits
the type, prints its value and a line break, and changes nothing. -/
theorem C78_calculator (hg : E.f.toEnv.Good B) (hB : 1 ≤ B) (hs : SortOk E.f.sort) (ht : Poly.SortTotal E.f) {line : List Char}
    {s : St E} {e : Parser.Expr} (hl : IsExpr s line) (hp : Parser.parse E.f.M E.dec line = .ok e) (he : IntRing e)
    (hn : ∀ x, .sym x ∉ e.leaves) (hsz : ringSize e ≤ E.f.M) (hpf : PowFits e) (κ : List Char → Int) :
    dispatch E line s = (.ok false, s, (toString (intVal κ e)).toList ++ ['\n']) := by
  have h := hg.powOk hB
  obtain ⟨n, n1, -, n3⟩ := Node.const_eval h hs ht κ he hn hsz hpf
  rw [dispatch_other hl.1]
  refine then_ok ?_
  rw [cmdOther_expr hl.2]
  unfold cmdNormalize parseNormal Node.ofText
  rw [lift_bind, hp, Res.bind_ok, n1, Res.bind_ok, n3]
  exact printResult_con h.toIntOk (le_trans (intVal_le κ he hn) hsz) s

/-- `1+2*3-(4-5)^3`. -/
theorem calc_example : Parser.parse cenv64.f.M cenv64.dec "1+2*3-(4-5)^3".toList =
    .ok (.node '-' (.node '+' (.leaf (.num ⟨1, 1⟩)) (.node '*' (.leaf (.num ⟨2, 1⟩)) (.leaf (.num ⟨3, 1⟩))))
      (.node '^' (.node '-' (.leaf (.num ⟨4, 1⟩)) (.leaf (.num ⟨5, 1⟩))) (.leaf (.num ⟨3, 1⟩)))) := by decide +kernel
theorem start_expr (line : List Char) (h : word line ∉ commandNames) : IsExpr start line := ⟨h, fun _ _ _ => rfl⟩
example : dispatch cenv64 "1+2*3-(4-5)^3".toList start = (.ok false, start, "8\n".toList) :=
  C78_calculator (E := cenv64) fenv64_good (by norm_num) fenv64_sort fenv64_total (start_expr _ (by decide)) calc_example
    (by simp [IntRing]; exact ⟨3, rfl⟩) (by intro x hx; simp [Parser.Expr.leaves] at hx) (by decide +kernel)
    (by simp [PowFits, ringSize, expo, oneTerm, Nat.factorial]) fun _ => 0
/-- beyond the hypotheses: the first word is a command, the size does not fit. -/
theorem C78_limits : does start "print +1" = (.ok false, []) ∧ does start "quit +1" = (.ok true, []) ∧
    does start "9223372036854775807+1" = (.ub "signed overflow", []) := by decide +kernel

/-! ### C79 -/

theorem intArgs_args (h : E.f.toEnv.IntOk) {inside : List Char} {ks : List Int} (ha : IntArgs inside ks)
    (hk : ∀ k ∈ ks, |k| ≤ E.f.M) : Args E inside (ks.map Num.Real.int) := by
  obtain ⟨ps, h1, h2⟩ := ha
  refine ⟨ps, h1, ?_⟩
  rw [List.forall₂_map_right_iff]
  clear h1
  induction h2 with
  | nil => exact .nil
  | @cons p k ps ks hp _ ih =>
    refine .cons ⟨⟨k, 1⟩, ?_, ?_⟩ (ih fun j hj => hk j (List.mem_cons_of_mem _ hj))
    · obtain ⟨q1, q2, q3⟩ := hp
      have hr : InRange E.f.M k := by
        have := abs_le.1 (hk k List.mem_cons_self)
        unfold InRange; omega
      have hd : p.dropWhile (· ≠ '/') = [] := by
        apply List.dropWhile_eq_nil_iff.2
        intro c hc
        rw [decide_eq_true_eq]
        rintro rfl
        exact q3 hc
      unfold Rational.ofStr
      rw [if_neg q2, hd]
      simp only
      rw [stoll_spec _ _ _ q1, if_pos hr]
      rfl
    · have := Real.ofInt_int h (hk k List.mem_cons_self)
      unfold Real.ofInt at this
      rwa [Rational.ofInt_eq _ _ (hk k List.mem_cons_self) h.hM, Res.bind_ok] at this

theorem lookup_map (κ : List Char → Int) {ps : List (List Char)} {x : List Char} (hx : x ∈ ps) :
    Term.lookup (ps.zip ((ps.map κ).map Num.Real.int)).reverse x = some (Num.Real.int (κ x)) := by
  have e : ps.zip ((ps.map κ).map Num.Real.int) = ps.map fun p => (p, Num.Real.int (κ p)) := by
    clear hx
    induction ps with
    | nil => rfl
    | cons p ps ih => simp only [List.map_cons, List.zip_cons_cons, ih]
  unfold Term.lookup
  cases hf : (ps.zip ((ps.map κ).map Num.Real.int)).reverse.find? fun p => decide (p.1 = x) with
  | none =>
    rw [List.find?_eq_none] at hf
    have := hf (x, Num.Real.int (κ x)) (by rw [List.mem_reverse, e]; exact List.mem_map.2 ⟨x, hx, rfl⟩)
    simp at this
  | some q =>
    have h1 := List.mem_of_find?_eq_some hf
    have h2 := List.find?_some hf
    rw [List.mem_reverse, e] at h1
    obtain ⟨p, -, rfl⟩ := List.mem_map.1 h1
    have h2 : p = x := by simpa using h2
    subst h2
    rfl

/-- a function whose body is an expression over integers, symbols, `+`, `-`, `*` and natural powers: its definition is
accepted, and a call with integers prints the value of the body at these integers, whatever the sign. -/
theorem C79_call (hg : E.f.toEnv.Good B) (hB : 1 ≤ B) (hs : SortOk E.f.sort) (ht : Poly.SortTotal E.f)
    {name dline cline inside : List Char} {params : List (List Char)} {e : Parser.Expr} {κ : List Char → Int} {K : Int}
    (hd : DefinesExpr E name dline params e) (he : IntRing e) (hv : ∀ x, .sym x ∈ e.leaves → x ∈ params)
    (hK : Fits E.f.M e params.length K) (hc : Calls cline name inside) (ha : IntArgs inside (params.map κ))
    (hk : ∀ x ∈ params, |κ x| ≤ K) :
    ∃ fn, Defines E name dline fn ∧ ∀ s : St E, s.funcs.find name = some fn →
      dispatch E cline s = (.ok false, s, (toString (intVal κ e)).toList ++ ['\n']) := by
  have h := hg.powOk hB
  have hM53 := h.hM53
  obtain ⟨ins, blanks, text, rfl, d2, d3, d4, d5, d6⟩ := hd
  obtain ⟨n, f, n1, n2, n3, n4, n5, hin, n6⟩ := Node.ring_sem (P := fun p => NatExp p ∧ p.1 ∈ params) hg hB hs ht he hK.powers
    hK.size (le_trans hK.deg hM53) fun x hx => ⟨⟨by norm_num, rfl⟩, hv x hx⟩
  refine ⟨⟨params, .frac f⟩, ⟨ins, blanks, text, n, rfl, d2, d3, d4, d5, ?_, n3⟩, fun s hf => ?_⟩
  · unfold Node.ofText
    rw [d6, Res.bind_ok, n1]
  · have hd0 : 0 ≤ ringDeg e := by
      clear * -
      induction e with
      | leaf l => cases l <;> simp [ringDeg]
      | node c a b ia ib =>
        unfold ringDeg
        split
        · omega
        · split
          · exact mul_nonneg ia (le_trans zero_le_one (le_max_left _ _))
          · exact le_trans ia (le_max_left _ _)
    have hS : SubstInt (params.zip ((params.map κ).map Num.Real.int)).reverse κ K (ringDeg e).toNat params.length f.num := by
      refine ⟨fun t ht q hq => ?_, fun t ht => ?_⟩
      · obtain ⟨q1, q2⟩ := hin.1 t ht q hq
        refine ⟨lookup_map κ q2, hk _ q2, q1, ?_⟩
        rw [Int.toNat_of_nonneg hd0]
        exact le_trans (le_abs_self _) ((n4.num t ht).2.1 q hq).2
      · have hw := (n4.num t ht).2.2.1
        have nd : (t.syms.map (·.1)).Nodup := by
          rw [List.nodup_iff_pairwise_ne, List.pairwise_map]
          exact hw.imp fun hlt => ne_of_lt hlt
        have := (List.subperm_of_subset nd (l₂ := params) fun x hx => by
          obtain ⟨q, hq, rfl⟩ := List.mem_map.1 hx
          exact (hin.1 t ht q hq).2).length_le
        simpa using this
    have hM : f.num.l1 * K ^ ((ringDeg e).toNat * params.length) ≤ E.f.M :=
      le_trans (mul_le_mul_of_nonneg_right n5 (by have := hK.one; positivity)) hK.all
    obtain ⟨r1, r2⟩ := Frac.substitute_int h hs ht hK.one hK.pow hK.arg (by rw [Int.toNat_of_nonneg hd0]; exact hK.deg) n4 hS hM
    have hval : f.num.at κ = intVal κ e :=
      intVal_at κ he ⟨fun t ht p hp => (hin.1 t ht p hp).1, fun t ht p hp => (hin.2 t ht p hp).1⟩ n4 n6
    rw [hval] at r1 r2
    rw [dispatch_other (calls_word hc)]
    refine then_ok ?_
    rw [cmdOther_call hc hf, cmdCall_args hf (intArgs_args h.toIntOk ha fun k hk' => by
        obtain ⟨x, hx, rfl⟩ := List.mem_map.1 hk'
        exact le_trans (hk x hx) hK.arg), if_pos (by simp)]
    simp only
    unfold Node.substitute
    rw [r1, Res.bind_ok, lift_bind]
    exact printResult_con h.toIntOk r2 s

theorem defines_unique {name line : List Char} {a b : Fn} (ha : Defines E name line a) (hb : Defines E name line b) : a = b := by
  obtain ⟨body, rfl⟩ := word_of_defines ha
  have h1 := defines_iff.1 ha
  rw [defines_iff.1 hb] at h1
  injection h1 with h1
  injection h1 with _ h1
  exact h1.symm

theorem latest_at {α : Type} {P : List Char → α → Prop} (hP : ∀ l a b, P l a → P l b → a = b) {init r : Option α}
    {before after : List (List Char)} {line : List Char} {a : α} (h : Latest P init (before ++ line :: after) r) (ha : P line a)
    (hn : ∀ l ∈ after, ∀ b, ¬ P l b) : r = some a := by
  induction after using List.reverseRecOn generalizing r with
  | nil => exact C64_unique hP h (.now ha)
  | append_singleton after l ih =>
    have e : before ++ line :: (after ++ [l]) = (before ++ line :: after) ++ [l] := by simp
    rw [e] at h
    generalize hl : (before ++ line :: after) ++ [l] = ls at h
    cases h with
    | start => simp at hl
    | @now ls' l' b hb =>
      obtain ⟨-, h2⟩ := List.append_inj' hl rfl
      injection h2 with h2
      subst h2
      exact absurd hb (hn _ (by simp) b)
    | @before ls' l' r' hb hr =>
      obtain ⟨h1, -⟩ := List.append_inj' hl rfl
      subst h1
      exact ih hr fun x hx => hn x (by simp [hx])

/-- the function of the last line that defines it is the one in force. -/
theorem session_find {input : List Char} {s : St E} {j n : Nat} (hrun : (mainloop E n s input).1 = .again) (hj : j < n)
    {name : List Char} {fn : Fn} (f1 : Defines E name (lineAt input j) fn)
    (hlast : ∀ i, j < i → i < n → ∀ fn, ¬ Defines E name (lineAt input i) fn) :
    (mainloop E n s input).2.st.funcs.find name = some fn := by
  refine latest_at (P := Defines E name) (init := s.funcs.find name) (fun _ _ _ => defines_unique) (before := (List.range j).map (lineAt input))
    (after := ((List.range n).drop (j + 1)).map (lineAt input)) (line := lineAt input j) ?_ f1 ?_
  · have e1 : (List.range n).map (lineAt input) = (List.range j).map (lineAt input) ++ lineAt input j ::
        ((List.range n).drop (j + 1)).map (lineAt input) := by
      rw [← List.map_cons (f := lineAt input), ← List.map_append]
      congr 1
      have e2 : (List.range n).take j = List.range j := by rw [List.take_range, Nat.min_eq_left hj.le]
      have e3 : (List.range n).drop j = j :: (List.range n).drop (j + 1) := by
        rw [List.drop_eq_getElem_cons (by simpa using hj)]
        simp
      rw [← e2, ← e3, List.take_append_drop]
    rw [← e1]
    exact (C64_history hrun name).1
  · intro l hl fn'
    obtain ⟨i, hi, rfl⟩ := List.mem_map.1 hl
    obtain ⟨k, hk1, hk2⟩ := List.mem_iff_getElem.1 hi
    rw [List.length_drop, List.length_range] at hk1
    rw [List.getElem_drop, List.getElem_range] at hk2
    exact hlast i (by omega) (by omega) fn'

/-- in a session: after the line that defines the function, as long as no later line redefines it, every call with integers
prints the value of its body. -/
theorem C79_session (hg : E.f.toEnv.Good B) (hB : 1 ≤ B) (hs : SortOk E.f.sort) (ht : Poly.SortTotal E.f) {input : List Char}
    {s : St E} {j n : Nat} (hrun : (mainloop E n s input).1 = .again) (hj : j < n)
    {name inside : List Char} {params : List (List Char)} {e : Parser.Expr} {κ : List Char → Int} {K : Int}
    (hd : DefinesExpr E name (lineAt input j) params e) (hlast : ∀ i, j < i → i < n → ∀ fn, ¬ Defines E name (lineAt input i) fn)
    (he : IntRing e) (hv : ∀ x, .sym x ∈ e.leaves → x ∈ params) (hK : Fits E.f.M e params.length K)
    (hc : Calls (lineAt input n) name inside) (ha : IntArgs inside (params.map κ)) (hk : ∀ x ∈ params, |κ x| ≤ K) :
    (mainloop E (n + 1) s input).1 = .again ∧ (mainloop E (n + 1) s input).2.st = (mainloop E n s input).2.st ∧
      (mainloop E (n + 1) s input).2.err = (mainloop E n s input).2.err ∧
      (mainloop E (n + 1) s input).2.out =
        (mainloop E n s input).2.out ++ "symxx> ".toList ++ ((toString (intVal κ e)).toList ++ ['\n']) := by
  obtain ⟨fn, f1, f2⟩ := C79_call hg hB hs ht hd he hv hK hc ha hk
  have hf := session_find hrun hj f1 hlast
  have := f2 _ hf
  rw [mainloop_succ hrun]
  have hl := mainloop_line hrun
  unfold iter
  simp only
  rw [hl, this]
  exact ⟨rfl, rfl, rfl, rfl⟩

/-- `func f(x,y) = (x-2*y)^3+x`, then `f(-7, 5)`. -/
def session79 : List Char := "func f(x,y) = (x-2*y)^3+x\n1+1\nf(-7,5)\n".toList
def body79 : Parser.Expr := .node '+' (.node '^' (.node '-' (.leaf (.sym ['x'])) (.node '*' (.leaf (.num ⟨2, 1⟩))
  (.leaf (.sym ['y'])))) (.leaf (.num ⟨3, 1⟩))) (.leaf (.sym ['x']))
def args79 (x : List Char) : Int := if x = ['x'] then -7 else 5

theorem session79_runs : (mainloop cenv64 2 start session79).1 = .again := by decide +kernel
theorem defines79 : DefinesExpr cenv64 ['f'] (lineAt session79 0) [['x'], ['y']] body79 :=
  ⟨"x,y".toList, [' '], " (x-2*y)^3+x".toList, by decide +kernel, by decide, by decide, by decide,
    splitParams_iff.1 (by decide), by decide +kernel⟩
theorem args79_ok : IntArgs "-7,5".toList ([['x'], ['y']].map args79) :=
  ⟨["-7".toList, "5".toList], splitParams_iff.1 (by decide),
    .cons ⟨⟨[], ['7'], [], ['-'], true, by decide, by simp, by simp, by simp, by decide, by simp, by decide⟩, by decide, by decide⟩
      (.cons ⟨⟨[], ['5'], [], [], false, by decide, by simp, by simp, by simp, by decide, by simp, by decide⟩, by decide, by decide⟩
        .nil)⟩
theorem fits79 : Fits cenv64.f.M body79 2 7 :=
  ⟨by decide +kernel, by decide +kernel, by simp [PowFits, body79, ringSize, expo, oneTerm, Nat.factorial], by norm_num,
    by decide +kernel, by decide +kernel, by decide +kernel⟩
example : (mainloop cenv64 3 start session79).2.out = (mainloop cenv64 2 start session79).2.out ++ "symxx> ".toList ++
    "-4920\n".toList :=
  (C79_session (E := cenv64) fenv64_good (by norm_num) fenv64_sort fenv64_total session79_runs (j := 0) (by norm_num) defines79
    (fun i h1 h2 fn hD => by
      have : i = 1 := by omega
      subst this
      obtain ⟨b, hb⟩ := word_of_defines hD
      have := congrArg List.length hb
      have hl : (lineAt session79 1).length = 3 := by decide +kernel
      rw [hl] at this
      simp at this)
    (Or.inl ⟨Or.inl rfl, Or.inr ⟨rfl, Or.inl ⟨by simp, trivial, Or.inl ⟨by simp, rfl, trivial⟩⟩, 3, rfl⟩, trivial⟩)
    (by intro x hx; simp [body79, Parser.Expr.leaves] at hx; rcases hx with rfl | rfl | rfl <;> simp)
    fits79 (κ := args79) (inside := "-7,5".toList) ⟨[], by decide +kernel, by decide, by decide⟩ args79_ok
    (by intro x hx; simp at hx; rcases hx with rfl | rfl <;> decide)).2.2.2

end Symxx.Cli

import Verif.Expr.Spec
import Verif.Parser.LexProof
/-!
# The leaves of every accepted text
-/
namespace Symxx.Sym
open Symxx.Num Symxx.Parser

/-- the fraction is non-negative, in lowest terms and in range. -/
def NumOk (M : Int) (q : Rational) : Prop := 0 ≤ q.num ∧ q.num ≤ M ∧ 0 < q.den ∧ q.den ≤ M ∧ q.Lowest

/-- the payload of a token. -/
def TokR (M : Int) : Tok → Prop
  | .digit q | .radical q => NumOk M q
  | .symbol x => '}' ∉ x
  | _ => True

variable {M : Int} {dec : List Char → Res Rational}

theorem catchNum_ok {α} {x : Res α} {a : α} (h : catchNum x = .ok a) : x = .ok a := by
  unfold catchNum at h
  split at h
  · cases h
  · cases h
  · exact h

theorem ofStr_numOk (hM : 1 ≤ M) (hd : DecLowest M dec) {s : List Char} (h : ∀ c ∈ s, isDig c = true ∨ c = '.')
    (hne : s ≠ []) {q : Rational} (hq : Rational.ofStr M dec s = .ok q) : NumOk M q := by
  by_cases hdot : '.' ∈ s
  · unfold Rational.ofStr at hq
    rw [if_pos hdot] at hq
    obtain ⟨r, h1, hq⟩ := Res.bind_eq_ok.1 hq
    obtain ⟨_, -, hq⟩ := Res.bind_eq_ok.1 hq
    injection hq with hq
    subst hq
    exact hd s r h (catchNum_ok h1)
  · have hD : Digits s := ⟨hne, fun c hc => by
      rcases h c hc with h | h
      · exact h
      · subst h; exact absurd hc hdot⟩
    rw [ofStr_digits M dec hD] at hq
    split at hq
    · rename_i h1
      injection hq with hq
      subst hq
      exact ⟨digVal_nonneg s hD.2, h1, one_pos, hM, by simp [Rational.Lowest]⟩
    · cases hq

theorem parseNumber_numOk (hM : 1 ≤ M) (hd : DecLowest M dec) {c : Char} (hc : (isDig c || c == '.') = true) {t : List Char}
    {x : Rational × List Char} (h : parseNumber M dec c t = .ok x) : NumOk M x.1 := by
  have hall : ∀ x ∈ c :: t.takeWhile (numChar (c == '.')), isDig x = true ∨ x = '.' := by
    intro x hx
    rcases List.mem_cons.1 hx with rfl | hx
    · simpa using hc
    · have := mem_takeWhile_imp' hx
      unfold numChar at this
      simp only [Bool.or_eq_true, Bool.and_eq_true, beq_iff_eq] at this
      rcases this with h | h
      · exact Or.inl h
      · exact Or.inr h.2
  unfold parseNumber at h
  obtain ⟨q, h1, h⟩ := Res.bind_eq_ok.1 h
  injection h with h
  subst h
  exact ofStr_numOk hM hd hall (by simp) h1

theorem inverse_numOk {p r : Rational} (hp : NumOk M p) (h : Rational.inverse M p = .ok r) : NumOk M r := by
  obtain ⟨h1, h2, h3, h4, h5, h6⟩ := Rational.inverse_spec h
  obtain ⟨p1, p2, p3, p4, p5⟩ := hp
  have hr := h5 (by omega)
  refine ⟨?_, le_trans (le_abs_self _) h6.1, hr, le_trans (le_abs_self _) h6.2, h3⟩
  have : 0 ≤ r.val := by
    rw [h2]
    unfold Rational.val
    have a1 : (0 : ℚ) ≤ (p.num : ℚ) := by exact_mod_cast p1
    have a2 : (0 : ℚ) < (p.den : ℚ) := by exact_mod_cast p3
    positivity
  unfold Rational.val at this
  have a2 : (0 : ℚ) < (r.den : ℚ) := by exact_mod_cast hr
  by_contra hn
  have hn : (r.num : ℚ) < 0 := by exact_mod_cast (not_le.1 hn)
  exact absurd (div_neg_of_neg_of_pos hn a2) (not_lt.2 this)

theorem getToken_tokR (hM : 2 ≤ M) (hd : DecLowest M dec) {s : List Char} {x : Tok × List Char}
    (h : getToken M dec s = .ok x) : TokR M x.1 := by
  unfold getToken at h
  generalize s.dropWhile isSpace = u at h
  cases u with
  | nil => injection h with h; subst h; trivial
  | cons ch t =>
    simp only at h
    split at h
    · obtain ⟨⟨p, r⟩, h1, h⟩ := Res.bind_eq_ok.1 h
      obtain ⟨q, h2, h⟩ := Res.bind_eq_ok.1 h
      injection h with h
      subst h
      refine inverse_numOk ?_ h2
      cases t with
      | nil => cases h1
      | cons d t' =>
        simp only at h1
        split at h1
        · rw [Rational.ofInt_eq M 2 (by simpa using hM) (by omega)] at h1
          injection h1 with h1
          injection h1 with h1 h1'
          subst h1
          exact ⟨by norm_num, hM, by norm_num, by simp only; omega, by simp [Rational.Lowest]⟩
        · split at h1
          · rename_i hdg
            exact parseNumber_numOk (by omega) hd hdg h1
          · cases h1
    · split at h
      · rename_i hdg
        obtain ⟨⟨q, r⟩, h1, h⟩ := Res.bind_eq_ok.1 h
        injection h with h
        subst h
        exact parseNumber_numOk (by omega) hd hdg h1
      · split at h
        · split at h
          · split at h <;> (injection h with h; subst h; trivial)
          · injection h with h; subst h; trivial
        · split at h
          · injection h with h; subst h; trivial
          · split at h
            · injection h with h; subst h; trivial
            · split at h
              · injection h with h
                subst h
                intro hx
                have := mem_takeWhile_imp' hx
                simp at this
              · split at h
                · rename_i ha
                  injection h with h
                  subst h
                  intro hx
                  rw [List.mem_singleton] at hx
                  subst hx
                  revert ha
                  decide
                · cases h

theorem glue_tokR (hM : 1 ≤ M) (b t : Tok) : ∀ u ∈ glue b t, TokR M u := by
  have h0 : NumOk M ⟨0, 1⟩ := ⟨le_rfl, by simp only; omega, one_pos, hM, by simp [Rational.Lowest]⟩
  intro u hu
  unfold glue at hu
  split at hu <;> try (simp at hu; done)
  all_goals try (simp at hu; subst hu; trivial)
  all_goals
    split at hu
    · simp at hu; subst hu; exact h0
    · simp at hu

theorem pushTok_tokR (hM : 1 ≤ M) {toks us : List Tok} (hv : ∀ t ∈ toks, TokR M t) (hne : toks ≠ []) {t : Tok} (ht : TokR M t)
    (h : pushTok toks t = .ok us) : (∀ u ∈ us, TokR M u) ∧ us ≠ [] := by
  obtain ⟨b, toks, rfl⟩ : ∃ b l, toks = b :: l := by
    cases toks with
    | nil => exact absurd rfl hne
    | cons b l => exact ⟨b, l, rfl⟩
  by_cases hb : b.isRadical = true
  · cases b <;> simp [Tok.isRadical] at hb
    rename_i p
    rw [pushTok_radical] at h
    cases t with
    | digit q =>
      injection h with h
      subst h
      simp only [List.forall_mem_cons] at hv ⊢
      exact ⟨⟨trivial, hv.1, trivial, ht, trivial, hv.2⟩, by simp⟩
    | _ => cases h
  · rw [pushTok_glue _ _ _ (by simpa using hb)] at h
    injection h with h
    subst h
    refine ⟨?_, by simp⟩
    intro u hu
    rcases List.mem_cons.1 hu with rfl | hu
    · exact ht
    · rcases List.mem_append.1 hu with hu | hu
      · exact glue_tokR hM b t u (List.mem_reverse.1 hu)
      · exact hv u hu

theorem tokLoop_tokR (hM : 2 ≤ M) (hd : DecLowest M dec) (f : Nat) : ∀ (toks us : List Tok) (s : List Char),
    (∀ t ∈ toks, TokR M t) → toks ≠ [] → tokLoop M dec f toks s = .ok us → ∀ u ∈ us, TokR M u := by
  induction f with
  | zero => intro toks us s _ _ h; cases h
  | succ f ih =>
    intro toks us s hv hne h
    unfold tokLoop at h
    split at h
    · injection h with h; subst h; exact hv
    · obtain ⟨⟨t, s'⟩, h1, h⟩ := Res.bind_eq_ok.1 h
      obtain ⟨vs, h2, h⟩ := Res.bind_eq_ok.1 h
      obtain ⟨p1, p2⟩ := pushTok_tokR (by omega) hv hne (getToken_tokR hM hd h1) h2
      exact ih vs us s' p1 p2 h

theorem operands_ok {ts : List Tok} (h : ∀ t ∈ ts, TokR M t) :
    ∀ l ∈ operands ts, (∀ q, l = .num q → NumOk M q) ∧ ∀ x, l = .sym x → '}' ∉ x := by
  induction ts with
  | nil => simp [operands]
  | cons t ts ih =>
    have ih := ih fun t ht => h t (List.mem_cons_of_mem _ ht)
    have ht := h t (by simp)
    cases t with
    | digit q =>
      intro l hl
      rcases List.mem_cons.1 hl with rfl | hl
      · exact ⟨fun q e => by injection e with e; subst e; exact ht, fun _ e => (nomatch e)⟩
      · exact ih l hl
    | symbol x =>
      intro l hl
      rcases List.mem_cons.1 hl with rfl | hl
      · exact ⟨fun _ e => (nomatch e), fun _ e => by injection e with e; subst e; exact ht⟩
      · exact ih l hl
    | _ => exact ih

/-- the numbers of every accepted text are non-negative fractions in lowest terms, its names contain no `}`. -/
theorem parse_leaves_ok (hM : 2 ≤ M) (hd : DecLowest M dec) {s : List Char} {e : Parser.Expr} (h : parse M dec s = .ok e) :
    ∀ l ∈ e.leaves, (∀ q, l = .num q → NumOk M q) ∧ ∀ x, l = .sym x → '}' ∉ x := by
  unfold parse getAllTokens at h
  obtain ⟨toks, h1, h⟩ := Res.bind_eq_ok.1 h
  obtain ⟨us, h2, h1⟩ := Res.bind_eq_ok.1 h1
  injection h1 with h1
  subst h1
  rw [parseToks_leaves _ _ h]
  have := tokLoop_tokR hM hd _ _ _ _ (by simp [TokR]) (by simp) h2
  refine operands_ok fun t ht => this t ?_
  exact List.mem_reverse.1 (List.mem_of_mem_tail (List.dropLast_subset _ ht))

theorem readable_of {e : Parser.Expr} (hw : e.WF) (h : ∀ l ∈ e.leaves, l.Readable M) : e.Readable M := by
  induction e with
  | leaf l => exact h l (by simp [Parser.Expr.leaves])
  | node c a b ia ib =>
    obtain ⟨h1, h2, h3⟩ := hw
    exact ⟨h1, ia h2 fun l hl => h l (by simp [Parser.Expr.leaves, hl]), ib h3 fun l hl => h l (by simp [Parser.Expr.leaves, hl])⟩

theorem parse_readable (hM : 2 ≤ M) (hd : DecLowest M dec) {s : List Char} {e : Parser.Expr} (h : parse M dec s = .ok e)
    (hw : e.WF) (hs : ∀ c, .sym [c] ∈ e.leaves → isAlpha c = true) : e.Readable M := by
  refine readable_of hw fun l hl => ?_
  obtain ⟨h1, h2⟩ := parse_leaves_ok hM hd h l hl
  cases l with
  | num q => exact h1 q rfl
  | sym x =>
    by_cases hx : x.length = 1
    · obtain ⟨c, rfl⟩ := List.length_eq_one_iff.1 hx
      exact Or.inr ⟨c, rfl, hs c hl⟩
    · exact Or.inl ⟨hx, h2 x rfl⟩

end Symxx.Sym

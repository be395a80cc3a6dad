import Verif.Parser.Shunt
import Verif.Parser.Spec
import Verif.Num.RatMore
/-!
# The tokeniser: spelling, juxtaposition, outcomes on every string
-/
namespace Symxx.Parser
open Symxx.Num

/-! ### numerals -/

theorem digVal_nonneg_aux (ds : List Char) (h : ∀ c ∈ ds, isDig c = true) (v : Int) (hv : 0 ≤ v) :
    0 ≤ ds.foldl (fun v c => v * 10 + ((c.toNat : Int) - 48)) v := by
  induction ds generalizing v with
  | nil => simpa using hv
  | cons c t ih =>
    simp only [List.foldl_cons]
    apply ih (fun c hc => h c (by simp [hc]))
    have h1 := h c (by simp)
    unfold isDig at h1
    simp only [Bool.and_eq_true, decide_eq_true_eq] at h1
    have : 48 ≤ c.toNat := h1.1
    omega

theorem digVal_nonneg (ds : List Char) (h : ∀ c ∈ ds, isDig c = true) : 0 ≤ digVal ds :=
  digVal_nonneg_aux ds h 0 le_rfl

theorem isDig_ne {c : Char} (h : isDig c = true) {x : Char} (hx : isDig x = false) : c ≠ x := by
  rintro rfl; rw [h] at hx; exact Bool.noConfusion hx

theorem stoll_digits (M : Int) {ds : List Char} (h : Digits ds) :
    stoll M ds = if digVal ds ≤ M then .ok (digVal ds) else .exn "out_of_range" := by
  have hs : StartsWithNumeral ds (digVal ds) :=
    ⟨[], ds, [], [], false, by simp, by simp, Or.inl ⟨rfl, rfl⟩, h.1, h.2, by simp, by simp⟩
  rw [stoll_spec M ds _ hs]
  have h0 := digVal_nonneg ds h.2
  by_cases hM : digVal ds ≤ M
  · rw [if_pos hM, if_pos]
    refine ⟨?_, hM⟩; omega
  · rw [if_neg hM, if_neg]
    exact fun h => hM h.2

theorem dropWhile_all {p : Char → Bool} {l : List Char} (h : ∀ c ∈ l, p c = true) : l.dropWhile p = [] := by
  induction l with
  | nil => rfl
  | cons a l ih =>
    rw [List.dropWhile_cons_of_pos (h a (by simp))]
    exact ih fun c hc => h c (by simp [hc])

theorem ofStr_digits (M : Int) (dec) {ds : List Char} (h : Digits ds) :
    Rational.ofStr M dec ds =
      if digVal ds ≤ M then .ok ⟨digVal ds, 1⟩ else .throw "The number is out of range." := by
  have h1 : '.' ∉ ds := fun hc => isDig_ne (h.2 _ hc) (x := '.') (by decide) rfl
  have h2 : ds.dropWhile (· ≠ '/') = [] := by
    apply dropWhile_all
    intro c hc
    simpa using isDig_ne (h.2 _ hc) (x := '/') (by decide)
  unfold Rational.ofStr
  rw [if_neg h1, h2, stoll_digits M h]
  by_cases hM : digVal ds ≤ M
  · rw [if_pos hM, if_pos hM]; rfl
  · rw [if_neg hM, if_neg hM]; rfl

theorem dropWhile_append {p : Char → Bool} {ds rest : List Char} (h : ∀ c ∈ ds, p c = true)
    (hr : ∀ c ∈ rest.head?, p c = false) : (ds ++ rest).dropWhile p = rest := by
  rw [List.dropWhile_append_of_pos h]
  cases rest with
  | nil => simp
  | cons c t => simp [hr c (by simp)]

theorem parseNumber_digits (M : Int) (dec) {c : Char} {ds rest : List Char} (h : Digits (c :: ds))
    (hr : EndsNumber rest) (hM : digVal (c :: ds) ≤ M) :
    parseNumber M dec c (ds ++ rest) = .ok (⟨digVal (c :: ds), 1⟩, rest) := by
  have hc : (c == '.') = false := by
    simpa using isDig_ne (h.2 c (by simp)) (x := '.') (by decide)
  have hall : ∀ x ∈ ds, numChar false x = true := fun x hx => by
    unfold numChar; rw [h.2 x (by simp [hx])]; rfl
  have hend : ∀ x ∈ rest.head?, numChar false x = false := fun x hx => by
    obtain ⟨a, b⟩ := hr x hx
    unfold numChar; rw [a]; simpa using b
  unfold parseNumber
  simp only [hc]
  rw [Num.takeWhile_append hall hend, dropWhile_append hall hend, ofStr_digits M dec h, if_pos hM]
  rfl

/-! ### one token -/

theorem getToken_space (M : Int) (dec) {c : Char} (h : isSpace c = true) (s : List Char) :
    getToken M dec (c :: s) = getToken M dec s := by
  unfold getToken
  rw [List.dropWhile_cons_of_pos h]

theorem alpha_facts {c : Char} (h : isAlpha c = true) :
    isSpace c = false ∧ isDig c = false ∧ c ≠ '_' ∧ c ≠ '.' ∧ c ≠ '+' ∧ c ≠ '-' ∧ c ≠ '*' ∧ c ≠ '/' ∧ c ≠ '^' ∧
      c ≠ '(' ∧ c ≠ ')' ∧ c ≠ '{' := by
  have key : (97 ≤ c.toNat ∧ c.toNat ≤ 122) ∨ (65 ≤ c.toNat ∧ c.toNat ≤ 90) := by
    unfold isAlpha at h
    simp only [Bool.or_eq_true, Bool.and_eq_true, decide_eq_true_eq] at h
    rcases h with ⟨a, b⟩ | ⟨a, b⟩
    · exact Or.inl ⟨a, b⟩
    · exact Or.inr ⟨a, b⟩
  have ne : ∀ x : Char, ¬ ((97 ≤ x.toNat ∧ x.toNat ≤ 122) ∨ (65 ≤ x.toNat ∧ x.toNat ≤ 90)) → c ≠ x := by
    rintro x hx rfl; exact hx key
  refine ⟨?_, ?_, ne _ (by decide), ne _ (by decide), ne _ (by decide), ne _ (by decide), ne _ (by decide),
    ne _ (by decide), ne _ (by decide), ne _ (by decide), ne _ (by decide), ne _ (by decide)⟩
  · unfold isSpace
    have h1 : c ≠ ' ' := ne _ (by decide)
    have h3 : ¬ c ≤ '\r' := fun h => by have : c.toNat ≤ 13 := h; omega
    simp [h1, h3]
  · unfold isDig
    have h3 : ¬ c ≤ '9' := fun h => by have : c.toNat ≤ 57 := h; omega
    simp [h3]


theorem getToken_root (M : Int) (hM : 2 ≤ M) (dec) {ds s : List Char} (h : Digits ds) (h0 : 0 < digVal ds)
    (hv : digVal ds ≤ M) : getToken M dec ('_' :: (ds ++ '/' :: s)) = .ok (.radical ⟨1, digVal ds⟩, s) := by
  obtain ⟨c, cs, rfl⟩ : ∃ c cs, ds = c :: cs := by
    cases ds with
    | nil => exact absurd rfl h.1
    | cons c cs => exact ⟨c, cs, rfl⟩
  have hd : isDig c = true := h.2 c (by simp)
  have hsl : c ≠ '/' := isDig_ne hd (by decide)
  have hn := parseNumber_digits M dec (rest := '/' :: s) h (by intro x hx; simp at hx; subst hx; decide) hv
  have hinv : Rational.inverse M ⟨digVal (c :: cs), 1⟩ = .ok ⟨1, digVal (c :: cs)⟩ := by
    generalize digVal (c :: cs) = v at h0 hv
    have hne : v ≠ 0 := by omega
    unfold Rational.inverse Rational.mk2
    simp only
    rw [show decide (v ≠ 0) = true by simpa using hne]
    rw [Res.assert_true, Res.bind_ok, Rational.normalize_eq M 1 v (by rw [abs_of_nonneg] <;> omega)
      (by rw [abs_of_nonneg] <;> omega) hne]
    rw [Int.gcd_one_left, if_neg (by simp only [Nat.cast_one, Int.tdiv_one]; omega)]
    simp
  unfold getToken
  rw [show ('_' :: (c :: cs ++ '/' :: s)).dropWhile isSpace = '_' :: (c :: (cs ++ '/' :: s)) from rfl]
  simp only [if_true, hsl, if_false, hd, Bool.true_or, hn, Res.bind_ok, hinv, List.tail_cons]

theorem getToken_op (M : Int) (dec) {c : Char} (hc : c = '+' ∨ c = '-' ∨ c = '*' ∨ c = '/' ∨ c = '^')
    {s : List Char} (hst : c = '*' → s.head? ≠ some '*') : getToken M dec (c :: s) = .ok (.op c, s) := by
  have key : (match s with
      | '*' :: t' => if c = '*' then (.ok (.op '^', t') : Res (Tok × List Char)) else .ok (.op c, s)
      | _ => .ok (.op c, s)) = .ok (.op c, s) := by
    split
    · rw [if_neg]
      intro h
      exact hst h rfl
    · rfl
  rw [← key]
  rcases hc with rfl | rfl | rfl | rfl | rfl <;> rfl

/-- one call of the tokeniser on a spelled text. -/
theorem getToken_lex (M : Int) (hM : 2 ≤ M) (dec) {z s : List Char} {ts : List Tok} (h : LexPre M z s ts) :
    (ts = [] → getToken M dec s = getToken M dec z) ∧
    (∀ t us, ts = t :: us → ∃ s', getToken M dec s = .ok (t, s') ∧ LexPre M z s' us ∧ s'.length < s.length) := by
  induction h with
  | nil => exact ⟨fun _ => rfl, by rintro t us ⟨⟩⟩
  | @space c s ts hc hs ih =>
    rw [getToken_space M dec hc]
    refine ⟨ih.1, fun t us e => ?_⟩
    obtain ⟨s', a, b, d⟩ := ih.2 t us e
    exact ⟨s', a, b, by simp only [List.length_cons]; omega⟩
  | @num ds s ts hd hv he hs ih =>
    refine ⟨by rintro ⟨⟩, ?_⟩
    rintro t us ⟨⟩
    refine ⟨s, ?_, hs, ?_⟩
    · obtain ⟨c, cs, rfl⟩ : ∃ c cs, ds = c :: cs := by
        cases ds with
        | nil => exact absurd rfl hd.1
        | cons c cs => exact ⟨c, cs, rfl⟩
      have hc : isDig c = true := hd.2 c (by simp)
      have hu : c ≠ '_' := isDig_ne hc (by decide)
      have hn := parseNumber_digits M dec hd he hv
      unfold getToken
      rw [List.cons_append, List.dropWhile_cons_of_neg (by rw [isDig_not_space hc]; simp)]
      simp only [hu, if_false, hc, Bool.true_or, if_true, hn, Res.bind_ok]
    · have : 0 < ds.length := List.length_pos_iff.2 hd.1
      simp only [List.length_append]; omega
  | @letter c s ts hc hs ih =>
    refine ⟨by rintro ⟨⟩, ?_⟩
    rintro t us ⟨⟩
    refine ⟨s, ?_, hs, by simp⟩
    obtain ⟨f1, f2, f3, f4, f5, f6, f7, f8, f9, f10, f11, f12⟩ := alpha_facts hc
    unfold getToken
    rw [List.dropWhile_cons_of_neg (by rw [f1]; simp)]
    have f4' : (c == '.') = false := by simpa using f4
    simp only [f3, if_false, f2, f4', Bool.or_false, Bool.false_eq_true, f5, f6, f7, f8, f9, f10, f11, f12, hc,
      or_false, if_true]
  | @braced name s ts hn hs ih =>
    refine ⟨by rintro ⟨⟩, ?_⟩
    rintro t us ⟨⟩
    have hall : ∀ c ∈ name, (decide (c ≠ '}')) = true := by
      intro c hc
      simp only [ne_eq, decide_not, Bool.not_eq_eq_eq_not, Bool.not_true, decide_eq_false_iff_not]
      rintro rfl; exact hn hc
    have hend : ∀ c ∈ ('}' :: s).head?, (decide (c ≠ '}')) = false := by
      intro c hc; simp at hc; simp [← hc]
    refine ⟨s, ?_, hs, by simp only [List.length_cons, List.length_append]; omega⟩
    unfold getToken
    rw [show ('{' :: (name ++ '}' :: s)).dropWhile isSpace = '{' :: (name ++ '}' :: s) from rfl]
    have e1 := Num.takeWhile_append hall hend
    have e2 := dropWhile_append hall hend
    simp only [e1, e2]
    rfl
  | @op c s ts hc hst hs ih =>
    refine ⟨by rintro ⟨⟩, ?_⟩
    rintro t us ⟨⟩
    refine ⟨s, ?_, hs, by simp⟩
    exact getToken_op M dec hc hst
  | @starstar s ts hs ih =>
    refine ⟨by rintro ⟨⟩, ?_⟩
    rintro t us ⟨⟩
    exact ⟨s, rfl, hs, by simp only [List.length_cons]; omega⟩
  | @lparen s ts hs ih =>
    refine ⟨by rintro ⟨⟩, ?_⟩
    rintro t us ⟨⟩
    exact ⟨s, rfl, hs, by simp⟩
  | @rparen s ts hs ih =>
    refine ⟨by rintro ⟨⟩, ?_⟩
    rintro t us ⟨⟩
    exact ⟨s, rfl, hs, by simp⟩
  | @sqrt s ts hs ih =>
    refine ⟨by rintro ⟨⟩, ?_⟩
    rintro t us ⟨⟩
    refine ⟨s, ?_, hs, by simp only [List.length_cons]; omega⟩
    have e1 : Rational.ofInt M 2 = .ok ⟨2, 1⟩ := Rational.ofInt_eq M 2 (by simpa using hM) (by omega)
    have e2 : Rational.inverse M ⟨2, 1⟩ = .ok ⟨1, 2⟩ := by
      unfold Rational.inverse Rational.mk2
      simp only
      rw [show decide ((2 : Int) ≠ 0) = true by decide]
      rw [Res.assert_true, Res.bind_ok, Rational.normalize_eq M 1 2 (by simp; omega) (by simpa using hM) (by decide)]
      rfl
    unfold getToken
    rw [show ('_' :: '/' :: s).dropWhile isSpace = '_' :: '/' :: s from rfl]
    simp only [if_true, e1, e2, Res.bind_ok, List.tail_cons]
  | @root ds s ts hd h0 hv hs ih =>
    refine ⟨by rintro ⟨⟩, ?_⟩
    rintro t us ⟨⟩
    exact ⟨s, getToken_root M hM dec hd h0 hv, hs, by simp only [List.length_cons, List.length_append]; omega⟩

/-! ### gluing -/

def Tok.isRadical : Tok → Bool
  | .radical _ => true
  | _ => false

/-- tokens a text can spell. -/
def Tok.isRaw : Tok → Bool
  | .begin => false
  | .fin => false
  | _ => true

theorem LexPre.raw {M : Int} {z s : List Char} {ts : List Tok} (h : LexPre M z s ts) : ∀ t ∈ ts, t.isRaw = true := by
  induction h with
  | nil => simp
  | space _ _ ih => exact ih
  | _ => simp only [List.forall_mem_cons]; exact ⟨rfl, by assumption⟩

theorem pushTok_glue (b : Tok) (toks : List Tok) (t : Tok) (hb : b.isRadical = false) :
    pushTok (b :: toks) t = .ok (t :: ((glue b t).reverse ++ b :: toks)) := by
  cases b <;> cases t <;> first | rfl | simp [Tok.isRadical] at hb | skip
  all_goals
    rename_i c
    simp only [pushTok, glue, List.head?_cons, Option.getD_some, Bool.or_eq_true, beq_iff_eq]
    by_cases h : c = '+' ∨ c = '-'
    · simp [h, Rational.zero]
    · simp [h]

theorem pushTok_radical (p : Rational) (toks : List Tok) (t : Tok) :
    pushTok (.radical p :: toks) t = match t with
      | .digit q => .ok (.rparen :: .digit p :: .op '^' :: .digit q :: .lparen :: toks)
      | _ => .throw "Radical needs a rational." := by
  cases t <;> rfl

theorem tokLoop_fin (M : Int) (dec) (f : Nat) (toks : List Tok) (s : List Char) :
    tokLoop M dec (f + 1) (.fin :: toks) s = .ok (.fin :: toks) := by
  unfold tokLoop; simp

theorem tokLoop_step (M : Int) (dec) (f : Nat) (b : Tok) (hb : b ≠ .fin) (toks : List Tok) (s : List Char) :
    tokLoop M dec (f + 1) (b :: toks) s = (getToken M dec s >>= fun x =>
      pushTok (b :: toks) x.1 >>= fun toks => tokLoop M dec f toks x.2) := by
  conv_lhs => unfold tokLoop
  rw [if_neg (by simpa using hb)]

theorem glue_fin (b : Tok) : glue b .fin = [] := by cases b <;> rfl

/-- the tokeniser on a text that begins with a spelled part: after it, the state is the documented
reading, in front of the unread rest. -/
theorem tokLoop_pre (M : Int) (hM : 2 ≤ M) (dec) (z : List Char) (n : Nat) : ∀ (ts : List Tok), ts.length ≤ n →
    ∀ (s : List Char), LexPre M z s ts → ∀ (f : Nat), s.length + 2 ≤ f → ∀ (b : Tok) (toks : List Tok), b ≠ .fin →
    b.isRadical = false →
    (∃ us b', expand b ts = some us ∧ b' ≠ .fin ∧ b'.isRadical = false ∧
      ∃ toks' f' s', us.reverse ++ b :: toks = b' :: toks' ∧ getToken M dec s' = getToken M dec z ∧
        s'.length + 2 ≤ f' ∧ tokLoop M dec f (b :: toks) s = tokLoop M dec f' (b' :: toks') s') ∨
    (expand b ts = none ∧ ((∃ x, getToken M dec z = .ok x) → z = [] →
        tokLoop M dec f (b :: toks) s = .throw "Radical needs a rational.") ∧
      ((∃ m, getToken M dec z = .throw m) → ∃ m, tokLoop M dec f (b :: toks) s = .throw m)) := by
  induction n with
  | zero =>
    intro ts hts s hs f hf b toks hb hr
    obtain rfl : ts = [] := List.length_eq_zero_iff.1 (by omega)
    exact Or.inl ⟨[], b, rfl, hb, hr, toks, f, s, by simp, (getToken_lex M hM dec hs).1 rfl, hf, rfl⟩
  | succ n ih =>
    intro ts hts s hs f hf b toks hb hr
    cases ts with
    | nil => exact ih [] (by simp) s hs f hf b toks hb hr
    | cons t ts =>
      obtain ⟨s', g1, g2, g3⟩ := (getToken_lex M hM dec hs).2 t ts rfl
      obtain ⟨f, rfl⟩ : ∃ g, f = g + 1 := ⟨f - 1, by omega⟩
      simp only [List.length_cons] at hts
      rw [tokLoop_step _ _ _ _ hb, g1, Res.bind_ok, pushTok_glue _ _ _ hr, Res.bind_ok]
      have ht := hs.raw t (by simp)
      by_cases htr : t.isRadical = true
      · cases t <;> simp [Tok.isRadical] at htr
        rename_i p
        obtain ⟨f, rfl⟩ : ∃ g, f = g + 1 := ⟨f - 1, by omega⟩
        rw [tokLoop_step _ _ _ _ (by simp)]
        cases ts with
        | nil =>
          right
          rw [(getToken_lex M hM dec g2).1 rfl]
          refine ⟨rfl, ?_, ?_⟩
          · rintro - rfl
            rw [show getToken M dec [] = .ok (.fin, []) from rfl, Res.bind_ok, pushTok_radical]
            rfl
          · rintro ⟨m, e⟩
            rw [e]; exact ⟨m, rfl⟩
        | cons u ts =>
          obtain ⟨s'', k1, k2, k3⟩ := (getToken_lex M hM dec g2).2 u ts rfl
          rw [k1, Res.bind_ok, pushTok_radical]
          cases u with
          | digit q =>
            simp only [Res.bind_ok]
            simp only [List.length_cons] at hts
            rcases ih ts (by omega) s'' k2 f (by omega) .rparen _ (by simp) rfl with
              ⟨us, b', a1, a2, a3, toks', f', w, a4, a5, a6, a7⟩ | ⟨a1, a2, a3⟩
            · left
              refine ⟨glue b (.radical p) ++ [.lparen, .digit q, .op '^', .digit p, .rparen] ++ us, b', ?_, a2, a3,
                toks', f', w, ?_, a5, a6, a7⟩
              · simp only [expand, a1, Option.map_some]
              · rw [← a4]; simp
            · right
              exact ⟨by simp only [expand, a1, Option.map_none], a2, a3⟩
          | _ => exact Or.inr ⟨rfl, fun _ _ => rfl, fun _ => ⟨_, rfl⟩⟩
      · have htr : t.isRadical = false := by simpa using htr
        have he : expand b (t :: ts) = (expand t ts).map fun r => glue b t ++ t :: r := by
          cases t <;> first | rfl | (simp [Tok.isRadical] at htr)
        rcases ih ts (by omega) s' g2 f (by omega) t _ (by rintro rfl; simp [Tok.isRaw] at ht) htr with
          ⟨us, b', a1, a2, a3, toks', f', w, a4, a5, a6, a7⟩ | ⟨a1, a2, a3⟩
        · left
          refine ⟨glue b t ++ t :: us, b', by rw [he, a1]; rfl, a2, a3, toks', f', w, ?_, a5, a6, a7⟩
          rw [← a4]; simp
        · exact Or.inr ⟨by rw [he, a1]; rfl, a2, a3⟩

/-- the whole tokeniser on a spelled text: exactly the documented reading. -/
theorem tokLoop_lex (M : Int) (hM : 2 ≤ M) (dec) (ts : List Tok) (s : List Char)
    (hs : Lex M s ts) (f : Nat) (hf : s.length + 2 ≤ f) (b : Tok) (toks : List Tok) (hb : b ≠ .fin)
    (hr : b.isRadical = false) :
    tokLoop M dec f (b :: toks) s = match expand b ts with
      | some us => .ok (.fin :: (us.reverse ++ b :: toks))
      | none => .throw "Radical needs a rational." := by
  rcases tokLoop_pre M hM dec [] ts.length ts le_rfl s hs f hf b toks hb hr with
    ⟨us, b', a1, a2, a3, toks', f', w, a4, a5, a6, a7⟩ | ⟨a1, a2, a3⟩
  · obtain ⟨f', rfl⟩ : ∃ g, f' = g + 2 := ⟨f' - 2, by omega⟩
    rw [a1, a7]
    simp only [a4]
    rw [tokLoop_step _ _ _ _ a2, a5, show getToken M dec [] = .ok (.fin, []) from rfl, Res.bind_ok,
      pushTok_glue _ _ _ a3, Res.bind_ok, glue_fin, List.reverse_nil, List.nil_append, tokLoop_fin]
  · rw [a1]; exact a2 ⟨_, rfl⟩ rfl

/-- a text whose spelled beginning is followed by a character that can begin no token is rejected. -/
theorem parse_unexpected (M : Int) (hM : 2 ≤ M) (dec) {c : Char} {z s : List Char} {ts : List Tok}
    (h : LexPre M (c :: z) s ts) (hc : Unexpected c) : ∃ m, parse M dec s = .throw m := by
  obtain ⟨c1, c2, c3, c4⟩ := hc
  have hbad : ∃ m, getToken M dec (c :: z) = .throw m := by
    have e : "_.+-*/^(){".toList = ['_', '.', '+', '-', '*', '/', '^', '(', ')', '{'] := by rfl
    rw [e] at c4
    simp only [List.mem_cons, not_or, List.not_mem_nil, not_false_eq_true, and_true] at c4
    obtain ⟨f1, f2, f3, f4, f5, f6, f7, f8, f9, f10⟩ := c4
    have f2' : (c == '.') = false := by simpa using f2
    unfold getToken
    rw [List.dropWhile_cons_of_neg (by rw [c1]; simp)]
    simp only [f1, f2', f3, f4, f5, f6, f7, f8, f9, f10, c2, c3, if_false, Bool.or_false, Bool.false_eq_true, or_false]
    exact ⟨_, rfl⟩
  have key : ∃ m, tokLoop M dec (s.length + 2) [.begin] s = .throw m := by
    rcases tokLoop_pre M hM dec (c :: z) ts.length ts le_rfl s h _ le_rfl .begin [] (by simp) rfl with
      ⟨us, b', a1, a2, a3, toks', f', w, a4, a5, a6, a7⟩ | ⟨a1, a2, a3⟩
    · obtain ⟨f', rfl⟩ : ∃ g, f' = g + 1 := ⟨f' - 1, by omega⟩
      obtain ⟨m, hm⟩ := hbad
      rw [a7, tokLoop_step _ _ _ _ a2, a5, hm]
      exact ⟨m, rfl⟩
    · exact a3 hbad
  obtain ⟨m, hm⟩ := key
  unfold parse getAllTokens
  rw [hm]
  exact ⟨m, rfl⟩

theorem getAllTokens_lex (M : Int) (hM : 2 ≤ M) (dec) {s : List Char} {ts : List Tok} (h : Lex M s ts) :
    getAllTokens M dec s = match expand .begin ts with
      | some us => .ok (.begin :: (us ++ [.fin]))
      | none => .throw "Radical needs a rational." := by
  unfold getAllTokens
  rw [tokLoop_lex M hM dec ts s h _ le_rfl .begin [] (by simp) rfl]
  cases expand .begin ts <;> simp

theorem parse_lex (M : Int) (hM : 2 ≤ M) (dec) {s : List Char} {ts us : List Tok} (h : Lex M s ts)
    (hu : expand .begin ts = some us) : parse M dec s = parseToks us := by
  unfold parse
  rw [getAllTokens_lex M hM dec h, hu]
  simp

/-! ### every string -/

/-- the decimal conversion behaves: it returns a representable fraction, raises an `Error`, or one of
the two standard exceptions which the constructor converts. -/
def DecGood (M : Int) (dec : List Char → Res Rational) : Prop :=
  ∀ s, (∃ r, dec s = .ok r ∧ r.Fits M) ∨ (∃ m, dec s = .throw m) ∨ dec s = .exn "invalid_argument" ∨
    dec s = .exn "out_of_range"

theorem ofStr_fine (M : Int) (hM1 : 1 ≤ M) (dec) (hd : DecGood M dec) (s : List Char) (h : ∀ c ∈ s, isDig c = true ∨ c = '.')
    (hne : s ≠ []) : (Rational.ofStr M dec s).Fine ∧ ∀ r, Rational.ofStr M dec s = .ok r → r.Fits M ∧ r.den ≠ 0 := by
  by_cases hdot : '.' ∈ s
  · unfold Rational.ofStr
    rw [if_pos hdot]
    rcases hd s with ⟨r, e, hf⟩ | ⟨m, e⟩ | e | e
    · rw [e]
      simp only [catchNum, Res.bind_ok]
      by_cases h0 : r.den = 0
      · rw [show decide (r.den ≠ 0) = false by simpa using h0]
        exact ⟨Or.inr ⟨_, rfl⟩, by rintro _ ⟨⟩⟩
      · rw [show decide (r.den ≠ 0) = true by simpa using h0]
        refine ⟨Or.inl ⟨_, rfl⟩, ?_⟩
        rintro _ ⟨⟩
        exact ⟨hf, h0⟩
    · rw [e]; exact ⟨Or.inr ⟨m, rfl⟩, by rintro _ ⟨⟩⟩
    · rw [e]; exact ⟨Or.inr ⟨_, rfl⟩, by rintro _ ⟨⟩⟩
    · rw [e]; exact ⟨Or.inr ⟨_, rfl⟩, by rintro _ ⟨⟩⟩
  · have hD : Digits s := ⟨hne, fun c hc => by
      rcases h c hc with h | h
      · exact h
      · subst h; exact absurd hc hdot⟩
    rw [ofStr_digits M dec hD]
    by_cases hM : digVal s ≤ M
    · rw [if_pos hM]
      refine ⟨Or.inl ⟨_, rfl⟩, ?_⟩
      rintro _ ⟨⟩
      have h0 := digVal_nonneg s hD.2
      exact ⟨⟨by rw [abs_of_nonneg h0]; exact hM, by simpa using hM1⟩, by simp⟩
    · rw [if_neg hM]; exact ⟨Or.inr ⟨_, rfl⟩, by rintro _ ⟨⟩⟩

theorem parseNumber_fine (M : Int) (hM : 1 ≤ M) (dec) (hd : DecGood M dec) (c : Char)
    (hc : (isDig c || c == '.') = true) (t : List Char) :
    (parseNumber M dec c t).Fine ∧ ∀ x, parseNumber M dec c t = .ok x → x.1.Fits M ∧ x.2.length ≤ t.length := by
  have hall : ∀ x ∈ c :: t.takeWhile (numChar (c == '.')), isDig x = true ∨ x = '.' := by
    intro x hx
    rcases List.mem_cons.1 hx with rfl | hx
    · simpa using hc
    · have := mem_takeWhile_imp' hx
      unfold numChar at this
      simp only [Bool.or_eq_true, Bool.and_eq_true, beq_iff_eq] at this
      rcases this with h | h
      · exact Or.inl h
      · exact Or.inr h.2
  obtain ⟨h1, h2⟩ := ofStr_fine M hM dec hd _ hall (by simp)
  have hlen : (t.dropWhile (numChar (c == '.'))).length ≤ t.length :=
    (List.dropWhile_suffix _).length_le
  unfold parseNumber
  rcases h1 with ⟨q, e⟩ | ⟨m, e⟩
  · simp only [e, Res.bind_ok]
    refine ⟨Or.inl ⟨_, rfl⟩, ?_⟩
    rintro _ ⟨⟩
    exact ⟨(h2 q e).1, hlen⟩
  · simp only [e, Res.bind_throw]
    exact ⟨Or.inr ⟨_, rfl⟩, by rintro _ ⟨⟩⟩

theorem inverse_fine (M : Int) (r : Rational) (h : r.Fits M) : (Rational.inverse M r).Fine := by
  unfold Rational.inverse Rational.mk2
  by_cases h0 : r.num = 0
  · rw [show decide (r.num ≠ 0) = false by simpa using h0]
    exact Or.inr ⟨_, rfl⟩
  · rw [show decide (r.num ≠ 0) = true by simpa using h0, Res.assert_true, Res.bind_ok,
      Rational.normalize_eq M _ _ h.2 h.1 h0]
    exact Or.inl ⟨_, rfl⟩

/-- post-condition of one tokeniser call. -/
def TokOut (s : List Char) (x : Tok × List Char) : Prop :=
  x.1.Valid ∧ x.1 ≠ .begin ∧ (x.1 = .fin ∧ x.2 = [] ∨ x.1 ≠ .fin ∧ x.2.length < s.length)

theorem getToken_fine (M : Int) (hM : 2 ≤ M) (dec) (hd : DecGood M dec) (s : List Char) :
    (getToken M dec s).Fine ∧ ∀ x, getToken M dec s = .ok x → TokOut s x := by
  have hlen : (s.dropWhile isSpace).length ≤ s.length := (List.dropWhile_suffix _).length_le
  unfold getToken
  generalize s.dropWhile isSpace = u at hlen
  cases u with
  | nil =>
    refine ⟨Or.inl ⟨_, rfl⟩, ?_⟩
    rintro _ ⟨⟩
    exact ⟨trivial, by simp, Or.inl ⟨rfl, rfl⟩⟩
  | cons ch t =>
    simp only [List.length_cons] at hlen
    have out : ∀ (k : Tok) (r : List Char), k.Valid → k ≠ .begin → k ≠ .fin → r.length ≤ t.length →
        (Res.ok (k, r) : Res (Tok × List Char)).Fine ∧ ∀ x, (Res.ok (k, r) : Res _) = .ok x → TokOut s x := by
      intro k r h1 h2 h3 h4
      refine ⟨Or.inl ⟨_, rfl⟩, ?_⟩
      rintro _ ⟨⟩
      exact ⟨h1, h2, Or.inr ⟨h3, by simp only; omega⟩⟩
    have thr : ∀ m : String, (Res.throw m : Res (Tok × List Char)).Fine ∧
        ∀ x, (Res.throw m : Res _) = .ok x → TokOut s x := fun m => ⟨Or.inr ⟨_, rfl⟩, by rintro _ ⟨⟩⟩
    simp only
    split
    · -- root sign
      have rad : ∀ (p : Rational) (r : List Char), p.Fits M → r.length ≤ t.length →
          (do let p ← Rational.inverse M p; .ok (Tok.radical p, r.tail) : Res (Tok × List Char)).Fine ∧
          ∀ x, (do let p ← Rational.inverse M p; .ok (Tok.radical p, r.tail) : Res (Tok × List Char)) = .ok x →
            TokOut s x := by
        intro p r hp hr
        rcases inverse_fine M p hp with ⟨q, e⟩ | ⟨m, e⟩
        · simp only [e, Res.bind_ok]
          exact out _ _ trivial (by simp) (by simp) (by rw [List.length_tail]; omega)
        · simp only [e, Res.bind_throw]; exact thr m
      cases t with
      | nil => exact thr _
      | cons d t' =>
        simp only
        by_cases hsl : d = '/'
        · rw [if_pos hsl, Rational.ofInt_eq M 2 (by simpa using hM) (by omega)]
          simp only [Res.bind_ok]
          exact rad _ _ ⟨by simpa using hM, by simp; omega⟩ le_rfl
        · rw [if_neg hsl]
          by_cases hdg : (isDig d || d == '.') = true
          · rw [if_pos hdg]
            obtain ⟨h1, h2⟩ := parseNumber_fine M (by omega) dec hd d hdg t'
            rcases h1 with ⟨⟨q, r⟩, e⟩ | ⟨m, e⟩
            · simp only [e, Res.bind_ok]
              obtain ⟨g1, g2⟩ := h2 _ e
              exact rad q r g1 (by simp only [List.length_cons]; simp only at g2; omega)
            · simp only [e, Res.bind_throw]; exact thr m
          · rw [if_neg hdg]; exact thr _
    · split
      · rename_i hdg
        obtain ⟨h1, h2⟩ := parseNumber_fine M (by omega) dec hd ch hdg t
        rcases h1 with ⟨⟨q, r⟩, e⟩ | ⟨m, e⟩
        · simp only [e, Res.bind_ok]
          exact out _ _ trivial (by simp) (by simp) (h2 _ e).2
        · simp only [e, Res.bind_throw]; exact thr m
      · split
        · rename_i hop
          split
          · split
            · exact out _ _ (by simp [Tok.Valid]) (by simp) (by simp) (by simp)
            · exact out _ _ hop (by simp) (by simp) le_rfl
          · exact out _ _ hop (by simp) (by simp) le_rfl
        · split
          · exact out _ _ trivial (by simp) (by simp) le_rfl
          · split
            · exact out _ _ trivial (by simp) (by simp) le_rfl
            · split
              · refine out _ _ trivial (by simp) (by simp) ?_
                have : (t.dropWhile (· ≠ '}')).length ≤ t.length := (List.dropWhile_suffix _).length_le
                rw [List.length_tail]; omega
              · split
                · exact out _ _ trivial (by simp) (by simp) le_rfl
                · exact thr _

theorem glue_valid (b t : Tok) : ∀ u ∈ glue b t, u.Valid := by
  intro u hu
  unfold glue at hu
  split at hu <;> try (simp at hu; done)
  all_goals try (simp at hu; subst hu; simp [Tok.Valid]; done)
  all_goals
    split at hu
    · simp at hu; subst hu; trivial
    · simp at hu

theorem pushTok_fine (toks : List Tok) (hv : ∀ t ∈ toks, t.Valid) (hne : toks ≠ []) (t : Tok) (ht : t.Valid) :
    (pushTok toks t).Fine ∧ ∀ us, pushTok toks t = .ok us → (∀ u ∈ us, u.Valid) ∧ us ≠ [] ∧
      (t = .fin → us.head? = some .fin) := by
  obtain ⟨b, toks, rfl⟩ : ∃ b l, toks = b :: l := by
    cases toks with
    | nil => exact absurd rfl hne
    | cons b l => exact ⟨b, l, rfl⟩
  by_cases hb : b.isRadical = true
  · cases b <;> simp [Tok.isRadical] at hb
    rename_i p
    rw [pushTok_radical]
    cases t with
    | digit q =>
      refine ⟨Or.inl ⟨_, rfl⟩, ?_⟩
      rintro us ⟨⟩
      refine ⟨?_, by simp, by simp⟩
      simp only [List.forall_mem_cons] at hv ⊢
      exact ⟨trivial, trivial, by simp [Tok.Valid], trivial, trivial, hv.2⟩
    | _ => exact ⟨Or.inr ⟨_, rfl⟩, by rintro _ ⟨⟩⟩
  · rw [pushTok_glue _ _ _ (by simpa using hb)]
    refine ⟨Or.inl ⟨_, rfl⟩, ?_⟩
    rintro us ⟨⟩
    refine ⟨?_, by simp, by rintro rfl; simp⟩
    intro u hu
    rcases List.mem_cons.1 hu with rfl | hu
    · exact ht
    · rcases List.mem_append.1 hu with hu | hu
      · exact glue_valid b t u (List.mem_reverse.1 hu)
      · exact hv u hu

theorem tokLoop_fine (M : Int) (hM : 2 ≤ M) (dec) (hd : DecGood M dec) (f : Nat) : ∀ (toks : List Tok) (s : List Char),
    (∀ t ∈ toks, t.Valid) → toks ≠ [] → (s.length + 2 ≤ f ∨ toks.head? = some .fin ∧ 1 ≤ f) →
    (tokLoop M dec f toks s).Fine ∧ ∀ us, tokLoop M dec f toks s = .ok us → ∀ u ∈ us, u.Valid := by
  induction f with
  | zero => intro toks s _ _ h; omega
  | succ f ih =>
    intro toks s hv hne hf
    unfold tokLoop
    split
    · refine ⟨Or.inl ⟨_, rfl⟩, ?_⟩
      rintro us ⟨⟩
      exact hv
    · rename_i hnf
      have hf : s.length + 2 ≤ f + 1 := by
        rcases hf with h | h
        · exact h
        · exact absurd h.1 hnf
      obtain ⟨h1, h2⟩ := getToken_fine M hM dec hd s
      rcases h1 with ⟨⟨t, s'⟩, e⟩ | ⟨m, e⟩
      · simp only [e, Res.bind_ok]
        obtain ⟨k1, k2, k3⟩ := h2 _ e
        obtain ⟨p1, p2⟩ := pushTok_fine toks hv hne t k1
        rcases p1 with ⟨us, e'⟩ | ⟨m, e'⟩
        · simp only [e', Res.bind_ok]
          obtain ⟨q1, q2, q3⟩ := p2 _ e'
          apply ih us s' q1 q2
          simp only at k3
          rcases k3 with ⟨k3, k4⟩ | ⟨k3, k4⟩
          · exact Or.inr ⟨q3 k3, by omega⟩
          · exact Or.inl (by omega)
        · simp only [e', Res.bind_throw]
          exact ⟨Or.inr ⟨_, rfl⟩, by rintro _ ⟨⟩⟩
      · simp only [e, Res.bind_throw]
        exact ⟨Or.inr ⟨_, rfl⟩, by rintro _ ⟨⟩⟩

theorem parse_fine (M : Int) (hM : 2 ≤ M) (dec) (hd : DecGood M dec) (s : List Char) : (parse M dec s).Fine := by
  obtain ⟨h1, h2⟩ := tokLoop_fine M hM dec hd (s.length + 2) [.begin] s (by simp [Tok.Valid]) (by simp)
    (Or.inl le_rfl)
  unfold parse getAllTokens
  rcases h1 with ⟨us, e⟩ | ⟨m, e⟩
  · simp only [e, Res.bind_ok]
    apply parseToks_fine
    intro t ht
    have := List.mem_of_mem_tail (List.dropLast_subset _ ht)
    exact h2 us e t (List.mem_reverse.1 this)
  · simp only [e, Res.bind_throw]
    exact Or.inr ⟨_, rfl⟩

theorem LexPre.valid {M : Int} {z s : List Char} {ts : List Tok} (h : LexPre M z s ts) : ∀ t ∈ ts, t.Valid := by
  induction h with
  | nil => simp
  | space _ _ ih => exact ih
  | op hc _ _ ih => simp only [List.forall_mem_cons]; exact ⟨hc, ih⟩
  | starstar _ ih => simp only [List.forall_mem_cons]; exact ⟨by simp [Tok.Valid], ih⟩
  | _ => simp only [List.forall_mem_cons]; exact ⟨trivial, by assumption⟩

theorem expand_valid (n : Nat) : ∀ (ts : List Tok), ts.length ≤ n → ∀ (b : Tok) (us : List Tok),
    (∀ t ∈ ts, t.Valid) → expand b ts = some us → ∀ t ∈ us, t.Valid := by
  induction n with
  | zero =>
    intro ts hts b us _ h
    obtain rfl : ts = [] := List.length_eq_zero_iff.1 (by omega)
    simp only [expand, Option.some.injEq] at h
    subst h; simp
  | succ n ih =>
    intro ts hts b us hv h
    unfold expand at h
    split at h
    · injection h with h; subst h; simp
    · rename_i p q ts'
      simp only [List.length_cons] at hts
      cases he : expand .rparen ts' with
      | none => rw [he] at h; simp at h
      | some r =>
        rw [he] at h
        simp only [Option.map_some, Option.some.injEq] at h
        subst h
        have := ih ts' (by omega) _ r (fun t ht => hv t (by simp [ht])) he
        simp only [List.mem_append, List.mem_cons, List.not_mem_nil, or_false]
        rintro t ((ht | rfl | rfl | rfl | rfl | rfl) | ht)
        · exact glue_valid _ _ t ht
        · trivial
        · trivial
        · simp [Tok.Valid]
        · trivial
        · trivial
        · exact this t ht
    · cases h
    · rename_i t ts' _ _
      simp only [List.length_cons] at hts
      cases he : expand t ts' with
      | none => rw [he] at h; simp at h
      | some r =>
        rw [he] at h
        simp only [Option.map_some, Option.some.injEq] at h
        subst h
        have := ih ts' (by omega) _ r (fun t ht => hv t (by simp [ht])) he
        simp only [List.mem_append, List.mem_cons]
        rintro u (hu | rfl | hu)
        · exact glue_valid _ _ u hu
        · exact hv u (by simp)
        · exact this u hu

/-! ### an expression text for every tree -/

/-- how a token is written. -/
def Tok.spell : Tok → List Char
  | .digit q => (toString q.num).toList
  | .symbol x => '{' :: (x ++ ['}'])
  | .op c => [c]
  | .lparen => ['(']
  | .rparen => [')']
  | _ => []

/-- leaves that can be written: natural numbers up to `M`, and names without `}`. -/
def Leaf.Writable (M : Int) : Leaf → Prop
  | .num q => 0 ≤ q.num ∧ q.num ≤ M ∧ q.den = 1
  | .sym x => '}' ∉ x

theorem spell_numeral {M : Int} {q : Rational} (h : Leaf.Writable M (.num q)) :
    Digits (toString q.num).toList ∧ digVal (toString q.num).toList = q.num := by
  obtain ⟨h0, h1, h2⟩ := h
  have e : (toString q.num).toList = Nat.toDigits 10 q.num.natAbs := by
    rw [toString_int_eq, if_neg (by omega)]; rfl
  rw [e]
  refine ⟨⟨Nat.toDigits_ne_nil, toDigits_isDig _⟩, ?_⟩
  rw [digVal_toDigits]; omega

theorem spell_head {l : Nat} {ts : List Tok} {e : Expr} {M : Int} (h : Derives l ts e) (hw : ∀ x ∈ e.leaves, x.Writable M)
    (rest : List Char) : ((ts.flatMap Tok.spell) ++ rest).head? ≠ some '*' := by
  induction h generalizing rest with
  | num q =>
    have hq := hw (.num q) (by simp [Expr.leaves])
    obtain ⟨⟨a, b⟩, -⟩ := spell_numeral hq
    simp only [List.flatMap_cons, List.flatMap_nil, List.append_nil, Tok.spell]
    cases hd : (toString q.num).toList with
    | nil => exact absurd hd a
    | cons c cs =>
      have := b c (by rw [hd]; simp)
      simp only [List.cons_append, List.head?_cons, ne_eq, Option.some.injEq]
      exact isDig_ne this (by decide)
  | sym x => simp [Tok.spell]
  | paren _ _ => simp [Tok.spell]
  | up _ _ ih => exact ih hw rest
  | bin _ _ _ iha _ =>
    rw [List.flatMap_append, List.append_assoc]
    exact iha (fun x hx => hw x (by simp [Expr.leaves, hx])) _

theorem EndsNumber.cons {c : Char} {s : List Char} (h1 : isDig c = false) (h2 : c ≠ '.') : EndsNumber (c :: s) := by
  intro x hx
  simp only [List.head?_cons, Option.mem_some_iff] at hx
  subst hx
  exact ⟨h1, h2⟩

/-- the text of a derived token sequence spells it. -/
theorem lex_derives {l : Nat} {ts : List Tok} {e : Expr} {M : Int} (h : Derives l ts e)
    (hw : ∀ x ∈ e.leaves, x.Writable M) (s : List Char) (rest : List Tok) (hs : Lex M s rest) (hend : EndsNumber s) :
    Lex M (ts.flatMap Tok.spell ++ s) (ts ++ rest) := by
  induction h generalizing s rest with
  | num q =>
    have hq := hw (.num q) (by simp [Expr.leaves])
    obtain ⟨hD, hv⟩ := spell_numeral hq
    obtain ⟨n, d⟩ := q
    obtain ⟨h0, h1, h2⟩ := hq
    simp only at h0 h1 h2 hv hD
    subst h2
    have := LexPre.num (M := M) (z := []) hD (by rw [hv]; exact h1) hend hs
    rw [hv] at this
    simpa [Tok.spell] using this
  | sym x =>
    have hx : '}' ∉ x := hw (.sym x) (by simp [Expr.leaves])
    have := LexPre.braced (M := M) (z := []) hx hs
    simpa [Tok.spell] using this
  | @paren ts e _ ih =>
    have h1 := ih hw (')' :: s) (.rparen :: rest) (.rparen hs) (.cons (by decide) (by decide))
    have := LexPre.lparen h1
    simpa [Tok.spell] using this
  | up _ _ ih => exact ih hw s rest hs hend
  | @bin l c ts us a b hop _ hb iha ihb =>
    have hwb : ∀ x ∈ b.leaves, x.Writable M := fun x hx => hw x (by simp [Expr.leaves, hx])
    have h1 := ihb hwb s rest hs hend
    have hc : c = '+' ∨ c = '-' ∨ c = '*' ∨ c = '/' ∨ c = '^' := by cases hop <;> simp
    have h2 := LexPre.op (z := []) hc (fun _ => spell_head hb hwb s) h1
    have h3 := iha (fun x hx => hw x (by simp [Expr.leaves, hx])) _ _ h2
      (by rcases hc with rfl | rfl | rfl | rfl | rfl <;> exact .cons (by decide) (by decide))
    simpa [Tok.spell] using h3

/-- nothing is inserted into a derived token sequence. -/
theorem expand_derives {l : Nat} {ts : List Tok} {e : Expr} (h : Derives l ts e) :
    ∃ last : Tok, last.endsOperand = true ∧ ∀ (prev : Tok) (rest : List Tok),
      prev = .begin ∨ prev = .lparen ∨ (∃ c, prev = .op c) →
      expand prev (ts ++ rest) = (expand last rest).map (ts ++ ·) := by
  induction h with
  | num q =>
    refine ⟨.digit q, rfl, ?_⟩
    rintro prev rest (rfl | rfl | ⟨c, rfl⟩) <;> rfl
  | sym q =>
    refine ⟨.symbol q, rfl, ?_⟩
    rintro prev rest (rfl | rfl | ⟨c, rfl⟩) <;> rfl
  | @paren ts e _ ih =>
    obtain ⟨last, h1, h2⟩ := ih
    refine ⟨.rparen, rfl, ?_⟩
    intro prev rest hp
    have hg : glue prev .lparen = [] := by rcases hp with rfl | rfl | ⟨c, rfl⟩ <;> rfl
    have hg2 : glue last .rparen = [] := by cases last <;> first | rfl | (simp [Tok.endsOperand] at h1)
    have e1 : expand prev (.lparen :: (ts ++ [.rparen]) ++ rest) =
        (expand .lparen (ts ++ (.rparen :: rest))).map fun r => glue prev .lparen ++ .lparen :: r := by
      simp [expand]
    have e2 : expand last (.rparen :: rest) = (expand .rparen rest).map fun r => glue last .rparen ++ .rparen :: r := rfl
    rw [e1, h2 .lparen _ (Or.inr (Or.inl rfl)), e2, hg, hg2]
    cases expand .rparen rest <;> simp
  | up _ _ ih => exact ih
  | @bin l c ts us a b hop _ _ iha ihb =>
    obtain ⟨la, a1, a2⟩ := iha
    obtain ⟨lb, b1, b2⟩ := ihb
    refine ⟨lb, b1, ?_⟩
    intro prev rest hp
    have hg : glue la (.op c) = [] := by cases la <;> first | rfl | (simp [Tok.endsOperand] at a1)
    have e2 : expand la (.op c :: (us ++ rest)) = (expand (.op c) (us ++ rest)).map fun r => glue la (.op c) ++ .op c :: r := rfl
    rw [List.append_assoc, List.cons_append, a2 prev _ hp, e2, b2 (.op c) rest (Or.inr (Or.inr ⟨c, rfl⟩)), hg]
    cases expand lb rest <;> simp

/-- the text of a derived token sequence parses to its tree. -/
theorem parse_spell (M : Int) (hM : 2 ≤ M) (dec) {ts : List Tok} {e : Expr} (h : Derives 1 ts e)
    (hw : ∀ x ∈ e.leaves, x.Writable M) : parse M dec (ts.flatMap Tok.spell) = .ok e := by
  have h1 := lex_derives h hw [] [] .nil (by intro c hc; simp at hc)
  rw [List.append_nil, List.append_nil] at h1
  obtain ⟨last, -, h2⟩ := expand_derives h
  have h3 := h2 .begin [] (Or.inl rfl)
  rw [List.append_nil] at h3
  rw [parse_lex M hM dec h1 (us := ts) (h3.trans (by simp [expand])), parseToks_derives h]

end Symxx.Parser

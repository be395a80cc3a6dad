import Verif.Expr.Spec
import Verif.Parser.LexProof
/-!
# Texts that the parser reads back: how readings compose
-/
namespace Symxx.Sym
open Symxx.Num Symxx.Parser

/-- a partial real-valued function of the assignment. -/
abbrev Den := (List Char → ℝ) → Option ℝ

/-- an operator applied to two such functions. -/
noncomputable def opV (c : Char) (v w : Den) : Den := fun ρ => (v ρ).bind fun x => (w ρ).bind fun y => opSem c x y

/-- the text `s` is read as an operand or operator sequence of grammar level `l` denoting `v`, wherever an operand is
expected (`lead = false`), or only at the beginning of the input or after `(` (`lead = true`). -/
def Reads (M : Int) (lead : Bool) (l : Nat) (s : List Char) (v : Den) : Prop :=
  ∃ (ts us : List Tok) (last : Tok) (e : Expr),
    (∀ (w z : List Char) (rest : List Tok), EndsNumber z → LexPre M w z rest → LexPre M w (s ++ z) (ts ++ rest)) ∧
    (∀ z, (s ++ z).head? ≠ some '*') ∧
    last.endsOperand = true ∧
    (∀ (prev : Tok) (rest : List Tok), prev = .begin ∨ prev = .lparen ∨ (lead = false ∧ ∃ c, prev = .op c) →
      expand prev (ts ++ rest) = (expand last rest).map (us ++ ·)) ∧
    Derives l us e ∧ ∀ ρ, exprSem ρ e = v ρ

/-- the text `s` is read as one operand denoting `v`, also directly after another operand, from which the parser then
separates it by a `*`. -/
def Juxt (M : Int) (s : List Char) (v : Den) : Prop :=
  ∃ (ts us : List Tok) (last : Tok) (e : Expr),
    (∀ (w z : List Char) (rest : List Tok), EndsNumber z → LexPre M w z rest → LexPre M w (s ++ z) (ts ++ rest)) ∧
    (∀ z, (s ++ z).head? ≠ some '*') ∧ (∀ z, EndsNumber (s ++ z)) ∧
    last.endsOperand = true ∧
    (∀ (prev : Tok) (rest : List Tok), prev = .begin ∨ prev = .lparen ∨ (∃ c, prev = .op c) →
      expand prev (ts ++ rest) = (expand last rest).map (us ++ ·)) ∧
    (∀ (prev : Tok) (rest : List Tok), prev.endsOperand = true →
      expand prev (ts ++ rest) = (expand last rest).map (.op '*' :: us ++ ·)) ∧
    Derives 4 us e ∧ ∀ ρ, exprSem ρ e = v ρ

variable {M : Int} {s t : List Char} {v w : Den}

theorem Juxt.reads (h : Juxt M s v) : Reads M false 4 s v := by
  obtain ⟨ts, us, last, e, h1, h2, -, h3, h4, -, h5, h6⟩ := h
  refine ⟨ts, us, last, e, h1, h2, h3, fun prev rest hp => h4 prev rest ?_, h5, h6⟩
  rcases hp with hp | hp | ⟨-, hp⟩
  · exact Or.inl hp
  · exact Or.inr (Or.inl hp)
  · exact Or.inr (Or.inr hp)

theorem Reads.down {b : Bool} {l m : Nat} (h : Reads M b m s v) (h1 : 1 ≤ l) (hm : l ≤ m) : Reads M b l s v := by
  obtain ⟨ts, us, last, e, a1, a2, a3, a4, a5, a6⟩ := h
  exact ⟨ts, us, last, e, a1, a2, a3, a4, a5.down h1 hm, a6⟩

theorem Reads.lead {b : Bool} {l : Nat} (h : Reads M b l s v) : Reads M true l s v := by
  obtain ⟨ts, us, last, e, a1, a2, a3, a4, a5, a6⟩ := h
  refine ⟨ts, us, last, e, a1, a2, a3, fun prev rest hp => a4 prev rest ?_, a5, a6⟩
  rcases hp with hp | hp | ⟨hp, -⟩
  · exact Or.inl hp
  · exact Or.inr (Or.inl hp)
  · simp at hp

theorem Reads.congr {b : Bool} {l : Nat} (h : Reads M b l s v) (he : ∀ ρ, v ρ = w ρ) : Reads M b l s w := by
  obtain ⟨ts, us, last, e, a1, a2, a3, a4, a5, a6⟩ := h
  exact ⟨ts, us, last, e, a1, a2, a3, a4, a5, fun ρ => (a6 ρ).trans (he ρ)⟩

theorem Juxt.congr (h : Juxt M s v) (he : ∀ ρ, v ρ = w ρ) : Juxt M s w := by
  obtain ⟨ts, us, last, e, a1, a2, a3, a4, a5, a6, a7, a8⟩ := h
  exact ⟨ts, us, last, e, a1, a2, a3, a4, a5, a6, a7, fun ρ => (a8 ρ).trans (he ρ)⟩

/-- a text that is read is parsed. -/
theorem Reads.parse {b : Bool} (hM : 2 ≤ M) (dec) (h : Reads M b 1 s v) :
    ∃ e, Parser.parse M dec s = .ok e ∧ ∀ ρ, exprSem ρ e = v ρ := by
  obtain ⟨ts, us, last, e, a1, a2, a3, a4, a5, a6⟩ := h
  have hl : Lex M s ts := by
    have := a1 [] [] [] (by intro c hc; simp at hc) .nil
    simpa using this
  have hx := a4 .begin [] (Or.inl rfl)
  rw [List.append_nil] at hx
  refine ⟨e, ?_, a6⟩
  rw [parse_lex M hM dec hl (us := us) (hx.trans (by simp [expand])), parseToks_derives a5]

theorem glue_end_op {last : Tok} (h : last.endsOperand = true) (c : Char) : glue last (.op c) = [] := by
  cases last <;> first | rfl | (simp [Tok.endsOperand] at h)

theorem glue_end_rparen {last : Tok} (h : last.endsOperand = true) : glue last .rparen = [] := by
  cases last <;> first | rfl | (simp [Tok.endsOperand] at h)

theorem isOp_facts {c : Char} (hc : c = '+' ∨ c = '-' ∨ c = '*' ∨ c = '/' ∨ c = '^') : isDig c = false ∧ c ≠ '.' := by
  rcases hc with rfl | rfl | rfl | rfl | rfl <;> decide

/-- two texts with an operator in between, given how the operator sequence is derived. -/
theorem Reads.comp {b : Bool} {c : Char} (hc : c = '+' ∨ c = '-' ∨ c = '*' ∨ c = '/' ∨ c = '^') {l m k : Nat}
    (hs : Reads M b l s v) (ht : Reads M false m t w)
    (hd : ∀ us vs e f, Derives l us e → Derives m vs f →
      ∃ g, Derives k (us ++ .op c :: vs) g ∧ ∀ ρ, exprSem ρ g = opV c (fun ρ => exprSem ρ e) (fun ρ => exprSem ρ f) ρ) :
    Reads M b k (s ++ c :: t) (opV c v w) := by
  obtain ⟨ts, us, last, e, a1, a2, a3, a4, a5, a6⟩ := hs
  obtain ⟨ts', us', last', e', b1, b2, b3, b4, b5, b6⟩ := ht
  obtain ⟨g, g1, g2⟩ := hd us us' e e' a5 b5
  refine ⟨ts ++ .op c :: ts', us ++ .op c :: us', last', g, ?_, ?_, b3, ?_, g1, ?_⟩
  · intro w z rest hz hl
    have h1 := b1 w z rest hz hl
    have h2 := LexPre.op hc (fun _ => b2 z) h1
    have h3 := a1 w _ _ (.cons (isOp_facts hc).1 (isOp_facts hc).2) h2
    simpa using h3
  · intro z
    have := a2 (c :: t ++ z)
    simpa using this
  · intro prev rest hp
    have e2 : expand last (.op c :: (ts' ++ rest)) =
      (expand (.op c) (ts' ++ rest)).map fun r => glue last (.op c) ++ .op c :: r := rfl
    rw [List.append_assoc, List.cons_append, a4 prev _ hp, e2, b4 (.op c) rest (Or.inr (Or.inr ⟨rfl, c, rfl⟩)),
      glue_end_op a3]
    cases expand last' rest <;> simp
  · intro ρ
    rw [g2]
    simp only [opV, a6, b6]

theorem Reads.bin {b : Bool} {c : Char} {l : Nat} (hop : OpAt l c) (hs : Reads M b l s v) (ht : Reads M false (l + 1) t w) :
    Reads M b l (s ++ c :: t) (opV c v w) := by
  refine Reads.comp (by cases hop <;> simp) hs ht fun us vs e f h1 h2 => ⟨.node c e f, .bin hop h1 h2, fun ρ => rfl⟩

/-- `a + (b ± c)` without the parentheses. -/
theorem add_chain {ts : List Tok} {a : Expr} (h : Derives 1 ts a) {l : Nat} {us : List Tok} {b : Expr} (hb : Derives l us b)
    (hl : l = 1) : ∃ g, Derives 1 (ts ++ .op '+' :: us) g ∧
      ∀ ρ, exprSem ρ g = opV '+' (fun ρ => exprSem ρ a) (fun ρ => exprSem ρ b) ρ := by
  induction hb with
  | num q => simp at hl
  | sym x => simp at hl
  | paren _ _ => simp at hl
  | @up l us b hl1 hb ih =>
    subst hl
    exact ⟨.node '+' a b, .bin .plus h hb, fun ρ => rfl⟩
  | @bin l c us vs b d hop hb hd ih _ =>
    subst hl
    obtain ⟨g, g1, g2⟩ := ih rfl
    refine ⟨.node c g d, ?_, ?_⟩
    · have := Derives.bin hop g1 hd
      simpa using this
    · intro ρ
      show (exprSem ρ g).bind _ = _
      rw [g2]
      show _ = (exprSem ρ a).bind fun x => (exprSem ρ (.node c b d)).bind fun y => opSem '+' x y
      unfold opV
      simp only [exprSem]
      cases exprSem ρ a <;> cases exprSem ρ b <;> cases exprSem ρ d <;> simp [opSem]
      cases hop <;> simp <;> ring

/-- `a * (b */ c)` without the parentheses. -/
theorem mul_chain {ts : List Tok} {a : Expr} (h : Derives 2 ts a) {l : Nat} {us : List Tok} {b : Expr} (hb : Derives l us b)
    (hl : l = 2) : ∃ g, Derives 2 (ts ++ .op '*' :: us) g ∧
      ∀ ρ, exprSem ρ g = opV '*' (fun ρ => exprSem ρ a) (fun ρ => exprSem ρ b) ρ := by
  induction hb with
  | num q => simp at hl
  | sym x => simp at hl
  | paren _ _ => simp at hl
  | @up l us b hl1 hb ih =>
    subst hl
    exact ⟨.node '*' a b, .bin .times h hb, fun ρ => rfl⟩
  | @bin l c us vs b d hop hb hd ih _ =>
    subst hl
    obtain ⟨g, g1, g2⟩ := ih rfl
    refine ⟨.node c g d, ?_, ?_⟩
    · have := Derives.bin hop g1 hd
      simpa using this
    · intro ρ
      show (exprSem ρ g).bind _ = _
      rw [g2]
      show _ = (exprSem ρ a).bind fun x => (exprSem ρ (.node c b d)).bind fun y => opSem '*' x y
      unfold opV
      simp only [exprSem]
      cases exprSem ρ a <;> cases exprSem ρ b <;> cases hd' : exprSem ρ d <;> simp [opSem]
      rename_i x y z
      cases hop
      · simp; ring
      · simp
        split
        · rfl
        · simp; ring

theorem Reads.add {b : Bool} (hs : Reads M b 1 s v) (ht : Reads M false 1 t w) : Reads M b 1 (s ++ '+' :: t) (opV '+' v w) :=
  Reads.comp (by simp) hs ht fun _ _ _ _ h1 h2 => add_chain h1 h2 rfl

theorem Reads.mul {b : Bool} (hs : Reads M b 2 s v) (ht : Reads M false 2 t w) : Reads M b 2 (s ++ '*' :: t) (opV '*' v w) :=
  Reads.comp (by simp) hs ht fun _ _ _ _ h1 h2 => mul_chain h1 h2 rfl

/-- parentheses. -/
theorem Reads.paren {b : Bool} (h : Reads M b 1 s v) : Juxt M (['('] ++ s ++ [')']) v := by
  obtain ⟨ts, us, last, e, a1, a2, a3, a4, a5, a6⟩ := h
  have key : ∀ (prev : Tok) (rest : List Tok), expand prev (.lparen :: (ts ++ [.rparen]) ++ rest) =
      (expand .rparen rest).map fun r => glue prev .lparen ++ (.lparen :: (us ++ [.rparen]) ++ r) := by
    intro prev rest
    have e1 : expand prev (.lparen :: (ts ++ [.rparen]) ++ rest) =
        (expand .lparen (ts ++ (.rparen :: rest))).map fun r => glue prev .lparen ++ .lparen :: r := by
      simp [expand]
    have e2 : expand last (.rparen :: rest) = (expand .rparen rest).map fun r => glue last .rparen ++ .rparen :: r := rfl
    rw [e1, a4 .lparen _ (Or.inr (Or.inl rfl)), e2, glue_end_rparen a3]
    cases expand .rparen rest <;> simp
  refine ⟨.lparen :: (ts ++ [.rparen]), .lparen :: (us ++ [.rparen]), .rparen, e, ?_, by simp, ?_, rfl, ?_, ?_, .paren a5, a6⟩
  · intro w z rest hz hl
    have := LexPre.lparen (a1 w _ _ (EndsNumber.cons (by decide) (by decide)) (LexPre.rparen hl))
    simpa using this
  · intro z
    exact .cons (by decide) (by decide)
  · intro prev rest hp
    rw [key, show glue prev .lparen = [] by rcases hp with rfl | rfl | ⟨c, rfl⟩ <;> rfl]
    rfl
  · intro prev rest hp
    rw [key, show glue prev .lparen = [.op '*'] by cases prev <;> first | rfl | (simp [Tok.endsOperand] at hp)]
    rfl

/-- an operand directly after another one. -/
theorem Reads.juxt {b : Bool} (hs : Reads M b 2 s v) (ht : Juxt M t w) : Reads M b 2 (s ++ t) (opV '*' v w) := by
  obtain ⟨ts, us, last, e, a1, a2, a3, a4, a5, a6⟩ := hs
  obtain ⟨ts', us', last', e', b1, b2, b3, b4, b5, b6, b7, b8⟩ := ht
  refine ⟨ts ++ ts', us ++ .op '*' :: us', last', .node '*' e e', ?_, ?_, b4, ?_, .bin .times a5 (b7.down (by omega) (by omega)), ?_⟩
  · intro w z rest hz hl
    have := a1 w _ _ (b3 z) (b1 w z rest hz hl)
    simpa using this
  · intro z
    have := a2 (t ++ z)
    simpa using this
  · intro prev rest hp
    rw [List.append_assoc, a4 prev _ hp, b6 last rest a3]
    cases expand last' rest <;> simp
  · intro ρ
    show (exprSem ρ e).bind _ = _
    rw [a6]
    show (v ρ).bind (fun x => (exprSem ρ e').bind fun y => opSem '*' x y) = _
    rw [b8]
    rfl

/-- a sign at the beginning. -/
theorem Reads.neg (hM : 0 ≤ M) (hs : Reads M false 2 s v) : Reads M true 1 ('-' :: s) (opV '-' (fun _ => some 0) v) := by
  obtain ⟨ts, us, last, e, a1, a2, a3, a4, a5, a6⟩ := hs
  refine ⟨.op '-' :: ts, .digit ⟨0, 1⟩ :: .op '-' :: us, last, .node '-' (.leaf (.num ⟨0, 1⟩)) e, ?_, by simp, a3, ?_, ?_, ?_⟩
  · intro w z rest hz hl
    exact LexPre.op (by simp) (by simp) (a1 w z rest hz hl)
  · intro prev rest hp
    have hp' : prev = .begin ∨ prev = .lparen := by
      rcases hp with hp | hp | ⟨hp, -⟩
      · exact Or.inl hp
      · exact Or.inr hp
      · simp at hp
    have e2 : expand prev (.op '-' :: (ts ++ rest)) =
      (expand (.op '-') (ts ++ rest)).map fun r => glue prev (.op '-') ++ .op '-' :: r := rfl
    rw [List.cons_append, e2, a4 _ _ (Or.inr (Or.inr ⟨rfl, _, rfl⟩)),
      show glue prev (.op '-') = [.digit ⟨0, 1⟩] by rcases hp' with rfl | rfl <;> rfl]
    cases expand last rest <;> simp
  · exact Derives.bin (ts := [.digit ⟨0, 1⟩]) .minus ((Derives.num _).down (by omega) (by omega)) a5
  · intro ρ
    show ((exprSem ρ (.leaf (.num ⟨0, 1⟩))).bind fun x => (exprSem ρ e).bind fun y => opSem '-' x y) = _
    rw [a6]
    simp [exprSem, Rational.val, opV]

/-- a natural number. -/
theorem Reads.num (n : Int) (h0 : 0 ≤ n) (h1 : n ≤ M) :
    Reads M false 4 (toString n).toList (fun _ => some ((n : ℚ) : ℝ)) := by
  obtain ⟨hD, hv⟩ := spell_numeral (M := M) (q := ⟨n, 1⟩) ⟨h0, h1, rfl⟩
  simp only at hD hv
  refine ⟨[.digit ⟨n, 1⟩], [.digit ⟨n, 1⟩], .digit ⟨n, 1⟩, .leaf (.num ⟨n, 1⟩), ?_, ?_, rfl, ?_, .num _, ?_⟩
  · intro w z rest hz hl
    have := LexPre.num (M := M) hD (by rw [hv]; exact h1) hz hl
    rw [hv] at this
    exact this
  · intro z
    cases hd : (toString n).toList with
    | nil => exact absurd hd hD.1
    | cons c cs =>
      have := hD.2 c (by rw [hd]; simp)
      simp only [List.cons_append, List.head?_cons, ne_eq, Option.some.injEq]
      exact isDig_ne this (by decide)
  · rintro prev rest (rfl | rfl | ⟨-, c, rfl⟩) <;> rfl
  · intro ρ
    simp [exprSem, Rational.val]

/-- how a symbol is written. -/
def symText (x : List Char) : List Char := if x.length ≠ 1 then ['{'] ++ x ++ ['}'] else x

theorem lex_sym {x : List Char} (hx : SymOk x) {w z : List Char} {rest : List Tok} (hl : LexPre M w z rest) :
    LexPre M w (symText x ++ z) (.symbol x :: rest) := by
  unfold symText
  rcases hx with ⟨h1, h2⟩ | ⟨c, rfl, h⟩
  · rw [if_pos h1]
    have := LexPre.braced h2 hl
    simpa using this
  · exact LexPre.letter h hl

theorem sym_head {x : List Char} (hx : SymOk x) (z : List Char) : EndsNumber (symText x ++ z) ∧ (symText x ++ z).head? ≠ some '*' := by
  unfold symText
  rcases hx with ⟨h1, h2⟩ | ⟨c, rfl, h⟩
  · rw [if_pos h1]
    exact ⟨.cons (by decide) (by decide), by simp⟩
  · rw [if_neg (by simp)]
    refine ⟨.cons ?_ ?_, ?_⟩
    · exact (alpha_facts h).2.1
    · rintro rfl
      revert h; decide
    · simp only [List.cons_append, List.head?_cons, ne_eq, Option.some.injEq]
      rintro rfl
      revert h; decide

theorem Juxt.sym {x : List Char} (hx : SymOk x) : Juxt M (symText x) (fun ρ => some (ρ x)) := by
  refine ⟨[.symbol x], [.symbol x], .symbol x, .leaf (.sym x), fun w z rest hz hl => lex_sym hx hl,
    fun z => (sym_head hx z).2, fun z => (sym_head hx z).1, rfl, ?_, ?_, .sym _, fun ρ => rfl⟩
  · rintro prev rest (rfl | rfl | ⟨c, rfl⟩) <;> rfl
  · intro prev rest hp
    cases prev <;> first | rfl | (simp [Tok.endsOperand] at hp)

/-- `(x**n)` -/
theorem Juxt.pow {x : List Char} (hx : SymOk x) (n : Int) (h0 : 0 ≤ n) (h1 : n ≤ M) :
    Juxt M (['('] ++ symText x ++ ['*', '*'] ++ (toString n).toList ++ [')']) (fun ρ => some (ρ x ^ ((n : ℚ) : ℝ))) := by
  have key : Reads M false 3 (symText x ++ ['*', '*'] ++ (toString n).toList) (fun ρ => some (ρ x ^ ((n : ℚ) : ℝ))) := by
    obtain ⟨ts', us', last', e', b1, b2, b3, b4, b5, b6⟩ := Reads.num n h0 h1
    refine ⟨.symbol x :: .op '^' :: ts', .symbol x :: .op '^' :: us', last', .node '^' (.leaf (.sym x)) e', ?_, ?_, b3, ?_, ?_, ?_⟩
    · intro w z rest hz hl
      have := lex_sym hx (LexPre.starstar (b1 w z rest hz hl))
      simpa using this
    · intro z
      have := (sym_head hx (['*', '*'] ++ (toString n).toList ++ z)).2
      simpa using this
    · intro prev rest hp
      have e2 : expand prev (.symbol x :: .op '^' :: (ts' ++ rest)) =
        (expand (.symbol x) (.op '^' :: (ts' ++ rest))).map fun r => glue prev (.symbol x) ++ .symbol x :: r := rfl
      have e3 : expand (.symbol x) (.op '^' :: (ts' ++ rest)) =
        (expand (.op '^') (ts' ++ rest)).map fun r => glue (.symbol x) (.op '^') ++ .op '^' :: r := rfl
      rw [List.cons_append, List.cons_append, e2, e3, b4 _ _ (Or.inr (Or.inr ⟨rfl, _, rfl⟩)),
        show glue prev (.symbol x) = [] by rcases hp with rfl | rfl | ⟨-, c, rfl⟩ <;> rfl, glue_end_op rfl]
      cases expand last' rest <;> simp
    · exact Derives.bin (ts := [.symbol x]) .power ((Derives.sym _).down (by omega) (by omega)) b5
    · intro ρ
      show ((exprSem ρ (.leaf (.sym x))).bind fun a => (exprSem ρ e').bind fun y => opSem '^' a y) = _
      rw [b6]
      simp only [exprSem, Option.bind_some, opSem, Char.reduceEq, if_false, if_true]
      rw [if_pos]
      have hn : (0 : ℝ) ≤ ((n : ℚ) : ℝ) := by exact_mod_cast h0
      rcases lt_trichotomy (ρ x) 0 with h | h | h
      · exact Or.inr (Or.inr ⟨h, n, by push_cast; rfl⟩)
      · exact Or.inr (Or.inl ⟨h, hn⟩)
      · exact Or.inl h
  have := (key.down (l := 1) (by omega) (by omega)).paren
  simpa using this

/-- `_n/q`. -/
theorem Juxt.root (k : Nat) (hk : 1 < k) (hkM : (k : Int) ≤ M) (q : Nat) (hq : 0 < q) (hqM : (q : Int) ≤ M) :
    Juxt M ((if k ≠ 2 then ['_'] ++ (toString k).toList ++ ['/'] else ['_', '/']) ++ (toString (q : Int)).toList)
      (fun _ => some ((q : ℝ) ^ ((1 : ℝ) / k))) := by
  obtain ⟨hDq, hvq⟩ := spell_numeral (M := M) (q := ⟨q, 1⟩) ⟨by simp, hqM, rfl⟩
  obtain ⟨hDk, hvk⟩ := spell_numeral (M := M) (q := ⟨k, 1⟩) ⟨by simp, hkM, rfl⟩
  simp only at hDq hvq hDk hvk
  have hks : (toString k).toList = (toString (k : Int)).toList := rfl
  refine ⟨[.radical ⟨1, k⟩, .digit ⟨q, 1⟩], [.lparen, .digit ⟨q, 1⟩, .op '^', .digit ⟨1, k⟩, .rparen], .rparen,
    .node '^' (.leaf (.num ⟨q, 1⟩)) (.leaf (.num ⟨1, k⟩)), ?_, ?_, ?_, rfl, ?_, ?_, ?_, ?_⟩
  · intro w z rest hz hl
    have h1 := LexPre.num (M := M) hDq (by rw [hvq]; exact hqM) hz hl
    rw [hvq] at h1
    split
    · have := LexPre.root hDk (by rw [hvk]; omega) (by rw [hvk]; exact hkM) h1
      rw [hvk] at this
      rw [hks]
      simpa using this
    · rename_i h2
      rw [not_not] at h2
      subst h2
      have := LexPre.sqrt h1
      simpa using this
  · intro z
    split <;> simp
  · intro z
    split <;> exact .cons (by decide) (by decide)
  · rintro prev rest (rfl | rfl | ⟨c, rfl⟩) <;> simp [expand, glue]
  · intro prev rest hp
    cases prev <;> first | (simp [expand, glue]; done) | (simp [Tok.endsOperand] at hp)
  · exact Derives.paren (ts := [.digit ⟨q, 1⟩, .op '^', .digit ⟨1, k⟩])
      ((Derives.bin (ts := [.digit ⟨q, 1⟩]) .power ((Derives.num _).down (by omega) (by omega)) (.num _)).down (by omega) (by omega))
  · intro ρ
    have hk0 : (k : Int) ≠ 0 := by omega
    have hq' : (0 : ℝ) < q := by exact_mod_cast hq
    simp only [exprSem, hk0, if_false, one_ne_zero, Option.bind_some, opSem, Char.reduceEq, if_true, Rational.val]
    rw [if_pos (Or.inl (by push_cast; simpa using hq'))]
    push_cast
    simp

end Symxx.Sym

import Verif.Expr.PrintNum
import Verif.Expr.PrintInt
import Verif.Expr.PrintLeaf
/-!
# The text of an integer polynomial is read as an expression of the ring, no larger than the polynomial

The proofs follow `Print.lean` and `PrintNum.lean`, with a property of the tree in place of its value.
-/
namespace Symxx.Sym
open Symxx.Num Symxx.Parser

/-- as `Reads`, with a property of the tree. -/
def ReadsQ (M : Int) (lead : Bool) (l : Nat) (s : List Char) (Q : Expr → Prop) : Prop :=
  ∃ (ts us : List Tok) (last : Tok) (e : Expr),
    (∀ (w z : List Char) (rest : List Tok), EndsNumber z → LexPre M w z rest → LexPre M w (s ++ z) (ts ++ rest)) ∧
    (∀ z, (s ++ z).head? ≠ some '*') ∧
    last.endsOperand = true ∧
    (∀ (prev : Tok) (rest : List Tok), prev = .begin ∨ prev = .lparen ∨ (lead = false ∧ ∃ c, prev = .op c) →
      expand prev (ts ++ rest) = (expand last rest).map (us ++ ·)) ∧
    Derives l us e ∧ Q e

/-- as `Juxt`, with a property of the tree. -/
def JuxtQ (M : Int) (s : List Char) (Q : Expr → Prop) : Prop :=
  ∃ (ts us : List Tok) (last : Tok) (e : Expr),
    (∀ (w z : List Char) (rest : List Tok), EndsNumber z → LexPre M w z rest → LexPre M w (s ++ z) (ts ++ rest)) ∧
    (∀ z, (s ++ z).head? ≠ some '*') ∧ (∀ z, EndsNumber (s ++ z)) ∧
    last.endsOperand = true ∧
    (∀ (prev : Tok) (rest : List Tok), prev = .begin ∨ prev = .lparen ∨ (∃ c, prev = .op c) →
      expand prev (ts ++ rest) = (expand last rest).map (us ++ ·)) ∧
    (∀ (prev : Tok) (rest : List Tok), prev.endsOperand = true →
      expand prev (ts ++ rest) = (expand last rest).map (.op '*' :: us ++ ·)) ∧
    Derives 4 us e ∧ Q e

variable {M : Int} {s t : List Char} {Q Q' : Expr → Prop}

theorem JuxtQ.reads (h : JuxtQ M s Q) : ReadsQ M false 4 s Q := by
  obtain ⟨ts, us, last, e, h1, h2, -, h3, h4, -, h5, h6⟩ := h
  refine ⟨ts, us, last, e, h1, h2, h3, fun prev rest hp => h4 prev rest ?_, h5, h6⟩
  rcases hp with hp | hp | ⟨-, hp⟩
  · exact Or.inl hp
  · exact Or.inr (Or.inl hp)
  · exact Or.inr (Or.inr hp)

theorem ReadsQ.down {b : Bool} {l m : Nat} (h : ReadsQ M b m s Q) (h1 : 1 ≤ l) (hm : l ≤ m) : ReadsQ M b l s Q := by
  obtain ⟨ts, us, last, e, a1, a2, a3, a4, a5, a6⟩ := h
  exact ⟨ts, us, last, e, a1, a2, a3, a4, a5.down h1 hm, a6⟩

theorem ReadsQ.lead {b : Bool} {l : Nat} (h : ReadsQ M b l s Q) : ReadsQ M true l s Q := by
  obtain ⟨ts, us, last, e, a1, a2, a3, a4, a5, a6⟩ := h
  refine ⟨ts, us, last, e, a1, a2, a3, fun prev rest hp => a4 prev rest ?_, a5, a6⟩
  rcases hp with hp | hp | ⟨hp, -⟩
  · exact Or.inl hp
  · exact Or.inr (Or.inl hp)
  · simp at hp

theorem ReadsQ.imp {b : Bool} {l : Nat} (h : ReadsQ M b l s Q) (he : ∀ e, Q e → Q' e) : ReadsQ M b l s Q' := by
  obtain ⟨ts, us, last, e, a1, a2, a3, a4, a5, a6⟩ := h
  exact ⟨ts, us, last, e, a1, a2, a3, a4, a5, he e a6⟩

theorem JuxtQ.imp (h : JuxtQ M s Q) (he : ∀ e, Q e → Q' e) : JuxtQ M s Q' := by
  obtain ⟨ts, us, last, e, a1, a2, a3, a4, a5, a6, a7, a8⟩ := h
  exact ⟨ts, us, last, e, a1, a2, a3, a4, a5, a6, a7, he e a8⟩

theorem ReadsQ.parse {b : Bool} (hM : 2 ≤ M) (dec) (h : ReadsQ M b 1 s Q) : ∃ e, Parser.parse M dec s = .ok e ∧ Q e := by
  obtain ⟨ts, us, last, e, a1, a2, a3, a4, a5, a6⟩ := h
  have hl : Lex M s ts := by
    have := a1 [] [] [] (by intro c hc; simp at hc) .nil
    simpa using this
  have hx := a4 .begin [] (Or.inl rfl)
  rw [List.append_nil] at hx
  refine ⟨e, ?_, a6⟩
  rw [parse_lex M hM dec hl (us := us) (hx.trans (by simp [expand])), parseToks_derives a5]

theorem ReadsQ.bin {b : Bool} {c : Char} {l : Nat} (hop : OpAt l c) (hs : ReadsQ M b l s Q) (ht : ReadsQ M false (l + 1) t Q')
    {R : Expr → Prop} (hR : ∀ e f, Q e → Q' f → R (.node c e f)) : ReadsQ M b l (s ++ c :: t) R := by
  have hc : c = '+' ∨ c = '-' ∨ c = '*' ∨ c = '/' ∨ c = '^' := by cases hop <;> simp
  obtain ⟨ts, us, last, e, a1, a2, a3, a4, a5, a6⟩ := hs
  obtain ⟨ts', us', last', e', b1, b2, b3, b4, b5, b6⟩ := ht
  refine ⟨ts ++ .op c :: ts', us ++ .op c :: us', last', .node c e e', ?_, ?_, b3, ?_, .bin hop a5 b5, hR _ _ a6 b6⟩
  · intro w z rest hz hl
    have h1 := b1 w z rest hz hl
    have h2 := LexPre.op hc (fun _ => b2 z) h1
    have h3 := a1 w _ _ (.cons (isOp_facts hc).1 (isOp_facts hc).2) h2
    simpa using h3
  · intro z
    have := a2 (c :: t ++ z)
    simpa using this
  · intro prev rest hp
    have e2 : expand last (.op c :: (ts' ++ rest)) =
      (expand (.op c) (ts' ++ rest)).map fun r => glue last (.op c) ++ .op c :: r := rfl
    rw [List.append_assoc, List.cons_append, a4 prev _ hp, e2, b4 (.op c) rest (Or.inr (Or.inr ⟨rfl, c, rfl⟩)),
      glue_end_op a3]
    cases expand last' rest <;> simp

theorem ReadsQ.paren {b : Bool} (h : ReadsQ M b 1 s Q) : JuxtQ M (['('] ++ s ++ [')']) Q := by
  obtain ⟨ts, us, last, e, a1, a2, a3, a4, a5, a6⟩ := h
  have key : ∀ (prev : Tok) (rest : List Tok), expand prev (.lparen :: (ts ++ [.rparen]) ++ rest) =
      (expand .rparen rest).map fun r => glue prev .lparen ++ (.lparen :: (us ++ [.rparen]) ++ r) := by
    intro prev rest
    have e1 : expand prev (.lparen :: (ts ++ [.rparen]) ++ rest) =
        (expand .lparen (ts ++ (.rparen :: rest))).map fun r => glue prev .lparen ++ .lparen :: r := by
      simp [expand]
    have e2 : expand last (.rparen :: rest) = (expand .rparen rest).map fun r => glue last .rparen ++ .rparen :: r := rfl
    rw [e1, a4 .lparen _ (Or.inr (Or.inl rfl)), e2, glue_end_rparen a3]
    cases expand .rparen rest <;> simp
  refine ⟨.lparen :: (ts ++ [.rparen]), .lparen :: (us ++ [.rparen]), .rparen, e, ?_, by simp, ?_, rfl, ?_, ?_, .paren a5, a6⟩
  · intro w z rest hz hl
    have := LexPre.lparen (a1 w _ _ (EndsNumber.cons (by decide) (by decide)) (LexPre.rparen hl))
    simpa using this
  · intro z
    exact .cons (by decide) (by decide)
  · intro prev rest hp
    rw [key, show glue prev .lparen = [] by rcases hp with rfl | rfl | ⟨c, rfl⟩ <;> rfl]
    rfl
  · intro prev rest hp
    rw [key, show glue prev .lparen = [.op '*'] by cases prev <;> first | rfl | (simp [Tok.endsOperand] at hp)]
    rfl

theorem ReadsQ.juxt {b : Bool} (hs : ReadsQ M b 2 s Q) (ht : JuxtQ M t Q') {R : Expr → Prop}
    (hR : ∀ e f, Q e → Q' f → R (.node '*' e f)) : ReadsQ M b 2 (s ++ t) R := by
  obtain ⟨ts, us, last, e, a1, a2, a3, a4, a5, a6⟩ := hs
  obtain ⟨ts', us', last', e', b1, b2, b3, b4, b5, b6, b7, b8⟩ := ht
  refine ⟨ts ++ ts', us ++ .op '*' :: us', last', .node '*' e e', ?_, ?_, b4, ?_, .bin .times a5 (b7.down (by omega) (by omega)),
    hR _ _ a6 b8⟩
  · intro w z rest hz hl
    have := a1 w _ _ (b3 z) (b1 w z rest hz hl)
    simpa using this
  · intro z
    have := a2 (t ++ z)
    simpa using this
  · intro prev rest hp
    rw [List.append_assoc, a4 prev _ hp, b6 last rest a3]
    cases expand last' rest <;> simp

theorem ReadsQ.neg (hs : ReadsQ M false 2 s Q) {R : Expr → Prop}
    (hR : ∀ e, Q e → R (.node '-' (.leaf (.num ⟨0, 1⟩)) e)) : ReadsQ M true 1 ('-' :: s) R := by
  obtain ⟨ts, us, last, e, a1, a2, a3, a4, a5, a6⟩ := hs
  refine ⟨.op '-' :: ts, .digit ⟨0, 1⟩ :: .op '-' :: us, last, .node '-' (.leaf (.num ⟨0, 1⟩)) e, ?_, by simp, a3, ?_, ?_, hR _ a6⟩
  · intro w z rest hz hl
    exact LexPre.op (by simp) (by simp) (a1 w z rest hz hl)
  · intro prev rest hp
    have hp' : prev = .begin ∨ prev = .lparen := by
      rcases hp with hp | hp | ⟨hp, -⟩
      · exact Or.inl hp
      · exact Or.inr hp
      · simp at hp
    have e2 : expand prev (.op '-' :: (ts ++ rest)) =
      (expand (.op '-') (ts ++ rest)).map fun r => glue prev (.op '-') ++ .op '-' :: r := rfl
    rw [List.cons_append, e2, a4 _ _ (Or.inr (Or.inr ⟨rfl, _, rfl⟩)),
      show glue prev (.op '-') = [.digit ⟨0, 1⟩] by rcases hp' with rfl | rfl <;> rfl]
    cases expand last rest <;> simp
  · exact Derives.bin (ts := [.digit ⟨0, 1⟩]) .minus ((Derives.num _).down (by omega) (by omega)) a5

theorem ReadsQ.num (n : Int) (h0 : 0 ≤ n) (h1 : n ≤ M) : ReadsQ M false 4 (toString n).toList (· = .leaf (.num ⟨n, 1⟩)) := by
  obtain ⟨hD, hv⟩ := spell_numeral (M := M) (q := ⟨n, 1⟩) ⟨h0, h1, rfl⟩
  simp only at hD hv
  refine ⟨[.digit ⟨n, 1⟩], [.digit ⟨n, 1⟩], .digit ⟨n, 1⟩, .leaf (.num ⟨n, 1⟩), ?_, ?_, rfl, ?_, .num _, rfl⟩
  · intro w z rest hz hl
    have := LexPre.num (M := M) hD (by rw [hv]; exact h1) hz hl
    rw [hv] at this
    exact this
  · intro z
    cases hd : (toString n).toList with
    | nil => exact absurd hd hD.1
    | cons c cs =>
      have := hD.2 c (by rw [hd]; simp)
      simp only [List.cons_append, List.head?_cons, ne_eq, Option.some.injEq]
      exact isDig_ne this (by decide)
  · rintro prev rest (rfl | rfl | ⟨-, c, rfl⟩) <;> rfl

theorem JuxtQ.sym {x : List Char} (hx : SymOk x) : JuxtQ M (symText x) (· = .leaf (.sym x)) := by
  refine ⟨[.symbol x], [.symbol x], .symbol x, .leaf (.sym x), fun w z rest hz hl => lex_sym hx hl,
    fun z => (sym_head hx z).2, fun z => (sym_head hx z).1, rfl, ?_, ?_, .sym _, rfl⟩
  · rintro prev rest (rfl | rfl | ⟨c, rfl⟩) <;> rfl
  · intro prev rest hp
    cases prev <;> first | rfl | (simp [Tok.endsOperand] at hp)

theorem JuxtQ.pow {x : List Char} (hx : SymOk x) (n : Int) (h0 : 0 ≤ n) (h1 : n ≤ M) :
    JuxtQ M (['('] ++ symText x ++ ['*', '*'] ++ (toString n).toList ++ [')'])
      (· = .node '^' (.leaf (.sym x)) (.leaf (.num ⟨n, 1⟩))) := by
  have key : ReadsQ M false 3 (symText x ++ ['*', '*'] ++ (toString n).toList)
      (· = .node '^' (.leaf (.sym x)) (.leaf (.num ⟨n, 1⟩))) := by
    obtain ⟨ts', us', last', e', b1, b2, b3, b4, b5, b6⟩ := ReadsQ.num n h0 h1
    refine ⟨.symbol x :: .op '^' :: ts', .symbol x :: .op '^' :: us', last', .node '^' (.leaf (.sym x)) e', ?_, ?_, b3, ?_, ?_,
      by rw [b6]⟩
    · intro w z rest hz hl
      have := lex_sym hx (LexPre.starstar (b1 w z rest hz hl))
      simpa using this
    · intro z
      have := (sym_head hx (['*', '*'] ++ (toString n).toList ++ z)).2
      simpa using this
    · intro prev rest hp
      have e2 : expand prev (.symbol x :: .op '^' :: (ts' ++ rest)) =
        (expand (.symbol x) (.op '^' :: (ts' ++ rest))).map fun r => glue prev (.symbol x) ++ .symbol x :: r := rfl
      have e3 : expand (.symbol x) (.op '^' :: (ts' ++ rest)) =
        (expand (.op '^') (ts' ++ rest)).map fun r => glue (.symbol x) (.op '^') ++ .op '^' :: r := rfl
      rw [List.cons_append, List.cons_append, e2, e3, b4 _ _ (Or.inr (Or.inr ⟨rfl, _, rfl⟩)),
        show glue prev (.symbol x) = [] by rcases hp with rfl | rfl | ⟨-, c, rfl⟩ <;> rfl, glue_end_op rfl]
      cases expand last' rest <;> simp
    · exact Derives.bin (ts := [.symbol x]) .power ((Derives.sym _).down (by omega) (by omega)) b5
  have := (key.down (l := 1) (by omega) (by omega)).paren
  simpa using this

/-! ### the shape of the trees -/

/-- an expression of the ring within the bounds, over the symbols of `V`. -/
structure Shape (V : List Char → Prop) (K D : Int) (e : Expr) : Prop where
  ring : IntRing e
  fits : PowFits e
  size : ringSize e ≤ K
  pos : 1 ≤ ringSize e
  deg : ringDeg e ≤ D
  deg0 : 0 ≤ ringDeg e
  names : ∀ x, .sym x ∈ e.leaves → V x

variable {V : List Char → Prop} {K L D E : Int} {e f : Expr}

theorem Shape.mono (h : Shape V K D e) (hK : K ≤ L) (hD : D ≤ E) : Shape V L E e :=
  ⟨h.ring, h.fits, le_trans h.size hK, h.pos, le_trans h.deg hD, h.deg0, h.names⟩

theorem Shape.num (n : Int) : Shape V (max 1 |n|) 0 (.leaf (.num ⟨n, 1⟩)) :=
  ⟨rfl, trivial, le_rfl, le_max_left _ _, le_rfl, le_rfl, by simp [Expr.leaves]⟩

theorem Shape.sym {x : List Char} (hV : V x) : Shape V 1 1 (.leaf (.sym x)) :=
  ⟨trivial, trivial, le_rfl, le_rfl, le_rfl, by norm_num [ringDeg], by simpa [Expr.leaves] using hV⟩

theorem Shape.pow {x : List Char} (hV : V x) {n : Int} (h0 : 1 ≤ n) (h1 : n ≤ 2 ^ 53) :
    Shape V 1 n (.node '^' (.leaf (.sym x)) (.leaf (.num ⟨n, 1⟩))) := by
  have hs : ringSize (.node '^' (.leaf (.sym x)) (.leaf (.num ⟨n, 1⟩))) = 1 := by simp [ringSize]
  have hd : ringDeg (.node '^' (.leaf (.sym x)) (.leaf (.num ⟨n, 1⟩))) = n := by
    simp only [ringDeg, expo, Char.reduceEq, if_false, if_true, one_mul]
    omega
  refine ⟨Or.inr ⟨rfl, trivial, n.toNat, ?_⟩, ⟨trivial, trivial, fun _ => ⟨?_, ?_, ?_, Or.inl rfl⟩⟩, hs.le, hs.ge, hd.le, by omega,
    by simpa [Expr.leaves] using hV⟩
  · rw [Int.toNat_of_nonneg (by omega)]
  · simp only [expo]
    rw [Int.toNat_of_nonneg (by omega)]
    exact h1
  · norm_num [ringSize]
  · simp [ringSize]

theorem Shape.mul (h : Shape V K D e) (h' : Shape V L E f) : Shape V (K * L) (D + E) (.node '*' e f) := by
  have hs : ringSize (.node '*' e f) = ringSize e * ringSize f := by simp [ringSize]
  have hd : ringDeg (.node '*' e f) = ringDeg e + ringDeg f := by simp [ringDeg]
  refine ⟨Or.inl ⟨by simp, h.ring, h'.ring⟩, ⟨h.fits, h'.fits, fun hc => absurd hc (by decide)⟩, ?_, ?_, ?_, ?_,
    fun x hx => (List.mem_append.1 hx).elim (h.names x) (h'.names x)⟩
  · rw [hs]; exact mul_le_mul h.size h'.size (by linarith [h'.pos]) (by linarith [h.pos, h.size])
  · rw [hs]; nlinarith [h.pos, h'.pos]
  · rw [hd]; exact add_le_add h.deg h'.deg
  · rw [hd]; exact add_nonneg h.deg0 h'.deg0

theorem Shape.addSub {c : Char} (hc : c = '+' ∨ c = '-') (h : Shape V K D e) (h' : Shape V L D f) : Shape V (K + L) D (.node c e f) := by
  have hs : ringSize (.node c e f) = ringSize e + ringSize f := by rcases hc with rfl | rfl <;> simp [ringSize]
  have hd : ringDeg (.node c e f) = max (ringDeg e) (ringDeg f) := by rcases hc with rfl | rfl <;> simp [ringDeg]
  refine ⟨Or.inl ⟨by tauto, h.ring, h'.ring⟩, ⟨h.fits, h'.fits, fun hp => by rcases hc with rfl | rfl <;> exact absurd hp (by decide)⟩, ?_, ?_, ?_, ?_,
    fun x hx => (List.mem_append.1 hx).elim (h.names x) (h'.names x)⟩
  · rw [hs]; exact add_le_add h.size h'.size
  · rw [hs]; linarith [h.pos, h'.pos]
  · rw [hd]; exact max_le h.deg h'.deg
  · rw [hd]; exact le_max_of_le_left h.deg0

/-! ### terms -/

/-- the total degree. -/
def Syms.tdeg (s : Syms) : Int := (s.map fun p => p.2.num).sum

theorem Syms.tdeg_cons (p : List Char × Rational) (s : Syms) : Syms.tdeg (p :: s) = p.2.num + Syms.tdeg s := rfl

/-- what is printed: readable names, exponents from 1 to `2^53`. -/
def Syms.Small (V : List Char → Prop) (M : Int) (s : Syms) : Prop :=
  ∀ p ∈ s, (SymOk p.1 ∧ V p.1) ∧ 1 ≤ p.2.num ∧ p.2.num ≤ 2 ^ 53 ∧ p.2.num ≤ M ∧ p.2.den = 1

variable {env : Env}

theorem symStr_shape (hM : 1 ≤ env.M) {p : List Char × Rational}
    (h : (SymOk p.1 ∧ V p.1) ∧ 1 ≤ p.2.num ∧ p.2.num ≤ 2 ^ 53 ∧ p.2.num ≤ env.M ∧ p.2.den = 1) :
    ∃ s, Term.symStr env p = .ok s ∧ JuxtQ env.M s (Shape V 1 p.2.num) := by
  obtain ⟨x, ⟨n, d⟩⟩ := p
  obtain ⟨⟨h1, hV⟩, h2, h3, h3', h4⟩ := h
  simp only at h1 hV h2 h3 h3' h4
  subst h4
  have hf : Rational.Fits env.M ⟨n, 1⟩ := ⟨by rwa [abs_of_nonneg (show (0 : Int) ≤ n by omega)], by simpa using hM⟩
  unfold Term.symStr
  simp only
  rw [Rational.eqInt_spec _ _ _ hM (by norm_num) hf, Res.bind_ok]
  by_cases hn : n = 1
  · subst hn
    exact ⟨_, rfl, (JuxtQ.sym h1).imp fun e he => by rw [he]; exact Shape.sym hV⟩
  · refine ⟨_, rfl, ?_⟩
    have := JuxtQ.pow h1 n (by omega) h3'
    simp only [mul_one, hn, decide_false, Bool.not_false, if_true, Rational.toStr, ne_eq, not_true_eq_false, if_false]
    exact JuxtQ.imp (Q := (· = .node '^' (.leaf (.sym x)) (.leaf (.num ⟨n, 1⟩)))) this fun e he => by rw [he]; exact Shape.pow hV h2 h3

theorem symsStr_shape (hM : 1 ≤ env.M) {b : Bool} {s : Syms} (h : s.Small V env.M) :
    ∃ t, Term.symsStr env s = .ok t ∧ ∀ (a : List Char) (K D : Int), ReadsQ env.M b 2 a (Shape V K D) →
      ReadsQ env.M b 2 (a ++ t) (Shape V K (D + s.tdeg)) := by
  induction s with
  | nil =>
    refine ⟨[], rfl, fun a K D ha => ?_⟩
    rw [List.append_nil]
    exact ha.imp fun e he => he.mono le_rfl (by simp [Syms.tdeg])
  | cons p s ih =>
    obtain ⟨t1, a1, a2⟩ := symStr_shape hM (h p (by simp))
    obtain ⟨t2, b1, b2⟩ := ih fun q hq => h q (by simp [hq])
    refine ⟨t1 ++ t2, ?_, fun a K D ha => ?_⟩
    · unfold Term.symsStr
      rw [a1, Res.bind_ok, b1, Res.bind_ok]
    · have h1 := ha.juxt a2 (R := Shape V K (D + p.2.num)) fun e f he hf => by simpa using he.mul hf
      have := b2 _ _ _ h1
      rw [← List.append_assoc]
      exact this.imp fun e he => he.mono le_rfl (by rw [Syms.tdeg_cons]; omega)

theorem symsStr_shape' (hM : 1 ≤ env.M) {s : Syms} (h : s.Small V env.M) (hne : s ≠ []) :
    ∃ t, Term.symsStr env s = .ok t ∧ ReadsQ env.M false 2 t (Shape V 1 s.tdeg) := by
  cases s with
  | nil => exact absurd rfl hne
  | cons p s =>
    obtain ⟨t1, a1, a2⟩ := symStr_shape hM (h p (by simp))
    obtain ⟨t2, b1, b2⟩ := symsStr_shape (b := false) (s := s) hM fun q hq => h q (by simp [hq])
    refine ⟨t1 ++ t2, ?_, b2 _ _ _ (a2.reads.down (by omega) (by omega))⟩
    unfold Term.symsStr
    rw [a1, Res.bind_ok, b1, Res.bind_ok]

theorem Real.toStr_int (h : env.IntOk) {k : Int} (hk : |k| ≤ env.M) : Num.Real.toStr env (Num.Real.int k) = .ok (toString k).toList := by
  unfold Num.Real.toStr
  have : (Num.Real.int k).coe = ⟨k, 1⟩ := rfl
  rw [this, Rational.eqInt_int h.hM hk (Real.abs0 h), Res.bind_ok]
  by_cases hz : k = 0
  · subst hz; rfl
  · have : Real.isRational env (Num.Real.int k) = .ok true := by
      unfold Num.Real.isRational Num.Real.int
      rw [Rational.eqInt_int h.hM hk (Real.abs0 h), Res.bind_ok]
      split
      · rfl
      rw [Rational.eqInt_int h.hM (Real.abs1 h) (Real.abs1 h), Res.bind_ok]
      rfl
    rw [decide_eq_false hz, if_neg (by simp), this, Res.bind_ok, if_pos rfl]
    simp [Rational.toStr]

/-- the text of a term with a positive coefficient. -/
theorem term_shape (h : env.IntOk) {t : Term} {k : Int} (hk : t.coe = Num.Real.int k) (hp : 0 < k) (hkM : k ≤ env.M)
    (hs : t.syms.Small V env.M) : ∃ s, Term.toStr env t = .ok s ∧ ReadsQ env.M false 2 s (Shape V k t.syms.tdeg) := by
  have ka : |k| ≤ env.M := by rwa [abs_of_pos hp]
  unfold Term.toStr
  rw [hk, coeIs_int h ka (Real.abs0 h), Res.bind_ok, decide_eq_false (by omega), if_neg (by simp),
    coeIs_int h ka (Real.abs1 h), Res.bind_ok, coeIs_int h ka (by rw [abs_neg]; exact Real.abs1 h), Res.bind_ok,
    decide_eq_false (p := k = -1) (by omega), Real.toStr_int h ka]
  by_cases h1 : k = 1 ∧ t.syms ≠ []
  · obtain ⟨rfl, h1⟩ := h1
    obtain ⟨u, u1, u2⟩ := symsStr_shape' h.hM hs h1
    have h1' : t.syms.isEmpty = false := by simpa using h1
    rw [h1', u1]
    exact ⟨u, rfl, u2⟩
  · have hb : (!decide (k = 1) || t.syms.isEmpty) = true := by
      by_cases hk1 : k = 1
      · simp [hk1] at h1
        simp [h1]
      · simp [hk1]
    rw [hb, if_pos rfl, Bool.false_and, if_neg (by simp), Res.bind_ok]
    obtain ⟨u, u1, u2⟩ := symsStr_shape (b := false) h.hM hs
    rw [u1, Res.bind_ok]
    refine ⟨_, rfl, ?_⟩
    have := u2 _ k 0 (((ReadsQ.num k hp.le hkM).down (by omega) (by omega)).imp fun e he => by
      rw [he]
      refine (Shape.num k).mono ?_ le_rfl
      rw [abs_of_pos hp]
      omega)
    simpa using this

/-- the text of a term with a negative coefficient is `-` and the text of its negation. -/
theorem term_minus (h : env.IntOk) {t : Term} {k : Int} (hk : t.coe = Num.Real.int k) (hp : k < 0) (hkM : -k ≤ env.M)
    (hs : t.syms.Small V env.M) : ∃ s, Term.toStr env t = .ok ('-' :: s) ∧ Term.toStr env ⟨Num.Real.int (-k), t.syms⟩ = .ok s := by
  have ka : |k| ≤ env.M := by rwa [abs_of_neg hp]
  have kb : |-k| ≤ env.M := by rwa [abs_neg]
  have h1 : |(-1 : Int)| ≤ env.M := by rw [abs_neg]; exact Real.abs1 h
  obtain ⟨u, u1, -⟩ := symsStr_shape (b := false) h.hM hs
  have e : (toString k).toList = '-' :: (toString (-k)).toList := toString_neg k hp
  unfold Term.toStr
  dsimp only
  have f1 : ¬ k = 0 := by omega
  have f2 : ¬ k = 1 := by omega
  have f3 : ¬ -k = 0 := by omega
  have f4 : ¬ -k = -1 := by omega
  simp only [hk, coeIs_int h ka (Real.abs0 h), coeIs_int h ka (Real.abs1 h), coeIs_int h ka h1, Real.toStr_int h ka,
    coeIs_int h kb (Real.abs0 h), coeIs_int h kb (Real.abs1 h), coeIs_int h kb h1, Real.toStr_int h kb, u1, e, f1, f2, f3, f4,
    decide_false, Bool.not_false, Bool.true_or, if_true, Bool.false_and, Bool.false_eq_true, if_false, Res.bind_ok]
  by_cases hk1 : k = -1
  · subst hk1
    cases hse : t.syms.isEmpty with
    | true => exact ⟨_, rfl, rfl⟩
    | false => exact ⟨_, rfl, rfl⟩
  · have hk2 : -k ≠ 1 := by omega
    simp only [hk1, hk2, decide_false, Bool.false_and, Bool.false_eq_true, if_false, Bool.not_false, Bool.true_or, if_true, Res.bind_ok]
    exact ⟨_, rfl, rfl⟩

/-! ### polynomials -/

/-- integer terms whose non-zero terms can be read back. -/
structure Poly.Small (V : List Char → Prop) (env : Env) (D : Int) (p : Poly) : Prop where
  coe : ∀ t ∈ p, t.coe = Num.Real.int t.coe.coe.num
  syms : ∀ t ∈ p, t.syms.Small V env.M
  deg : ∀ t ∈ p, t.coe.coe.num ≠ 0 → t.syms.tdeg ≤ D

theorem Poly.Small.tail {t : Term} {p : Poly} (h : Poly.Small V env D (t :: p)) : Poly.Small V env D p :=
  ⟨fun u hu => h.coe u (by simp [hu]), fun u hu => h.syms u (by simp [hu]), fun u hu => h.deg u (by simp [hu])⟩

theorem dropZero_small {M : Int} (hM : 1 ≤ M) {s : Syms} (hs : s.Small V M) : Syms.dropZero M s = .ok s := by
  induction s with
  | nil => rfl
  | cons p s ih =>
    obtain ⟨x, n, d⟩ := p
    obtain ⟨-, h2, -, h3, h4⟩ := hs _ List.mem_cons_self
    simp only at h2 h3 h4
    subst h4
    have hf : Rational.Fits M ⟨n, 1⟩ := ⟨by rwa [abs_of_nonneg (show (0 : Int) ≤ n by omega)], by simpa using hM⟩
    unfold Syms.dropZero
    rw [Rational.eqInt_spec _ _ _ hM (by norm_num) hf, Res.bind_ok, ih fun q hq => hs q (by simp [hq]), Res.bind_ok]
    have : ¬ n = 0 * 1 := by omega
    simp only [this, decide_false, Bool.false_eq_true, if_false]

theorem negate_small (h : env.IntOk) {t : Term} {k : Int} (hk : t.coe = Num.Real.int k) (ka : |k| ≤ env.M)
    (hs : t.syms.Small V env.M) : Term.negate env t = .ok ⟨Num.Real.int (-k), t.syms⟩ := by
  unfold Term.negate
  rw [hk, Real.negate_int h ka, Res.bind_ok]
  unfold Term.mk'
  rw [dropZero_small h.hM hs, Res.bind_ok]

/-- the text of the terms after the first one. -/
theorem strLoop_shape {B : Nat} (hg : env.Good B) (hB : 1 ≤ B) {D : Int} {p : Poly} (h : Poly.Small V env D p) (hl : p.l1 ≤ env.M) :
    ∃ u, Poly.strLoop env p false = .ok u ∧ ∀ (b : Bool) (a : List Char) (K : Int), ReadsQ env.M b 1 a (Shape V K D) →
      ReadsQ env.M b 1 (a ++ u) (Shape V (K + p.l1) D) := by
  have hi := (hg.powOk hB).toIntOk
  induction p with
  | nil =>
    refine ⟨[], rfl, fun b a K ha => ?_⟩
    rw [List.append_nil]
    exact ha.imp fun e he => he.mono (by simp [Poly.l1]) le_rfl
  | cons t p ih =>
    have e1 : Poly.l1 (t :: p) = |t.coe.coe.num| + Poly.l1 p := by simp [Poly.l1]
    have n1 : 0 ≤ Poly.l1 p := by
      unfold Poly.l1
      exact List.sum_nonneg fun x hx => by
        obtain ⟨u, -, rfl⟩ := List.mem_map.1 hx
        exact abs_nonneg _
    have n2 := abs_nonneg t.coe.coe.num
    obtain ⟨u, u1, u2⟩ := ih h.tail (by omega)
    have hk := h.coe t (by simp)
    have hs := h.syms t (by simp)
    have ka : |t.coe.coe.num| ≤ env.M := by omega
    have hc : CoeOk env.M B t.coe := by rw [hk]; exact Node.coeOk_int hg.M1 hB ka
    have hz : Term.coeIs env t.coe 0 = .ok (decide (t.coe.coe.num = 0)) := by
      rw [hk]; exact coeIs_int hi ka (Real.abs0 hi)
    unfold Poly.strLoop
    rw [hz, Res.bind_ok]
    by_cases h0 : t.coe.coe.num = 0
    · simp only [h0, decide_true, if_true]
      refine ⟨u, u1, fun b a K ha => (u2 b a K ha).imp fun e he => he.mono ?_ le_rfl⟩
      omega
    · simp only [h0, decide_false, Bool.false_eq_true, if_false]
      have hd := h.deg t (by simp) h0
      rw [isPositive_ok hg hc, Res.bind_ok]
      by_cases hp : 0 < t.coe.coe.num
      · simp only [hp, decide_true, Bool.not_true, Bool.false_eq_true, if_false]
        rw [abs_of_pos hp] at e1 ka
        obtain ⟨x, x1, x2⟩ := term_shape hi hk hp ka hs
        refine ⟨['+'] ++ x ++ u, by rw [x1, Res.bind_ok, u1, Res.bind_ok], fun b a K ha => ?_⟩
        have := ReadsQ.bin .plus ha x2 (R := Shape V (K + t.coe.coe.num) D) fun e f he hf =>
          he.addSub (Or.inl rfl) (hf.mono le_rfl hd)
        have := u2 b _ _ this
        simp only [List.append_assoc, List.cons_append, List.nil_append] at this ⊢
        exact this.imp fun e he => he.mono (by omega) le_rfl
      · simp only [hp, decide_false, Bool.not_false, if_true]
        have hn : t.coe.coe.num < 0 := by omega
        rw [negate_small hi hk ka hs, Res.bind_ok]
        rw [abs_of_neg hn] at e1 ka
        obtain ⟨x, x1, x2⟩ := term_shape hi (t := ⟨Num.Real.int (-t.coe.coe.num), t.syms⟩) rfl (by omega) ka hs
        refine ⟨['-'] ++ x ++ u, by rw [x1, Res.bind_ok, u1, Res.bind_ok], fun b a K ha => ?_⟩
        have := ReadsQ.bin .minus ha x2 (R := Shape V (K + -t.coe.coe.num) D) fun e f he hf =>
          he.addSub (Or.inr rfl) (hf.mono le_rfl hd)
        have := u2 b _ _ this
        simp only [List.append_assoc, List.cons_append, List.nil_append] at this ⊢
        exact this.imp fun e he => he.mono (by omega) le_rfl

/-- the text of an integer polynomial is read as an expression of the ring. -/
theorem poly_shape {B : Nat} (hg : env.Good B) (hB : 1 ≤ B) {D : Int} (hD : 0 ≤ D) {p : Poly} (h : Poly.Small V env D p)
    (hl : p.l1 ≤ env.M) :
    ∃ s, Poly.toStr env p = .ok s ∧ ReadsQ env.M true 1 s (Shape V (p.l1 + 1) D) := by
  have hi := (hg.powOk hB).toIntOk
  have hM := hg.M1
  have n0 : ∀ p : Poly, 0 ≤ p.l1 := fun p => by
    unfold Poly.l1
    exact List.sum_nonneg fun x hx => by
      obtain ⟨u, -, rfl⟩ := List.mem_map.1 hx
      exact abs_nonneg _
  have z : ReadsQ env.M true 1 ['0'] (Shape V (p.l1 + 1) D) :=
    ((ReadsQ.num (M := env.M) 0 le_rfl (by omega)).down (by omega) (by omega)).lead.imp fun e he => by
      rw [he]
      have := n0 p
      exact (Shape.num 0).mono (by simpa using this) hD
  unfold Poly.toStr
  split
  · exact ⟨_, rfl, z⟩
  have hl' : ∀ t ∈ p, |t.coe.coe.num| ≤ env.M := fun t ht => le_trans (Poly.l1_mem ht) hl
  rw [nonzeros_ok hg fun t ht => by rw [h.coe t ht]; exact Node.coeOk_int hg.M1 hB (hl' t ht), Res.bind_ok]
  split
  · exact ⟨_, rfl, z⟩
  rename_i h1 h2
  clear z h1
  induction p with
  | nil => simp at h2
  | cons t p ih =>
    have e1 : Poly.l1 (t :: p) = |t.coe.coe.num| + Poly.l1 p := by simp [Poly.l1]
    have n1 := n0 p
    have n2 := abs_nonneg t.coe.coe.num
    have hk := h.coe t (by simp)
    have hs := h.syms t (by simp)
    have ka : |t.coe.coe.num| ≤ env.M := by omega
    have hz : Term.coeIs env t.coe 0 = .ok (decide (t.coe.coe.num = 0)) := by
      rw [hk]; exact coeIs_int hi ka (Real.abs0 hi)
    unfold Poly.strLoop
    rw [hz, Res.bind_ok]
    by_cases h0 : t.coe.coe.num = 0
    · simp only [h0, decide_true, if_true]
      have hz' : (p.countP fun t => t.coe.coe.num ≠ 0) ≠ 0 := by
        rw [List.countP_cons] at h2
        simpa [h0] using h2
      obtain ⟨s, s1, s2⟩ := ih h.tail (by omega) (fun u hu => hl' u (by simp [hu])) hz'
      exact ⟨s, s1, s2.imp fun e he => he.mono (by omega) le_rfl⟩
    · simp only [h0, decide_false, Bool.false_eq_true, if_false, if_true]
      have hd := h.deg t (by simp) h0
      obtain ⟨u, u1, u2⟩ := strLoop_shape hg hB h.tail (by omega)
      by_cases hp : 0 < t.coe.coe.num
      · rw [abs_of_pos hp] at e1 ka
        obtain ⟨x, x1, x2⟩ := term_shape hi hk hp ka hs
        have r := u2 true x _ ((x2.down (by omega) (by omega)).lead.imp fun e he => he.mono le_rfl hd)
        exact ⟨x ++ u, by rw [x1, Res.bind_ok, u1, Res.bind_ok], r.imp fun e he => he.mono (by omega) le_rfl⟩
      · have hn : t.coe.coe.num < 0 := by omega
        rw [abs_of_neg hn] at e1 ka
        obtain ⟨x, x1, x2⟩ := term_minus hi hk hn ka hs
        obtain ⟨x', x3, x4⟩ := term_shape hi (t := ⟨Num.Real.int (-t.coe.coe.num), t.syms⟩) rfl (by omega) ka hs
        rw [x2] at x3
        injection x3 with x3
        subst x3
        have r := x4.neg (R := Shape V (1 + -t.coe.coe.num) D) fun e he =>
          Shape.addSub (Or.inr rfl) ((Shape.num 0).mono (by simp) hD) (he.mono le_rfl hd)
        have r := u2 true _ _ r
        exact ⟨('-' :: x) ++ u, by rw [x1, Res.bind_ok, u1, Res.bind_ok], r.imp fun e he => he.mono (by omega) le_rfl⟩

end Symxx.Sym

import Verif.Parser.LexProof
import Verif.Parser.Accept
import Verif.Machine
/-!
# Properties C51-C54: the expression parser

`parse M dec s` is `ExprParser<T>(s).parse()` for an integer type with maximum `M`; `dec` is the
conversion of numerals with a decimal point.
-/
namespace Symxx.Parser
open Symxx.Num

/-! ## C51 precedence and associativity -/

/-- C51: for every expression tree over `+ - * / ^` whose leaves are natural numbers up to `M` or symbols
without `}`, parsing its text gives back exactly this tree; for the conventional text (parentheses only
where precedence and left associativity require them) and for the fully parenthesised text. -/
theorem C51_parse_render (M : Int) (hM : 2 ≤ M) (dec) (e : Expr) (he : e.WF) (hw : ∀ x ∈ e.leaves, x.Writable M) :
    parse M dec ((render 1 e).flatMap Tok.spell) = .ok e ∧
    parse M dec ((renderFull e).flatMap Tok.spell) = .ok e :=
  ⟨parse_spell M hM dec (derives_render e he 1 le_rfl (by omega)) hw,
    parse_spell M hM dec ((derives_renderFull e he).down le_rfl (by omega)) hw⟩

/-- C51, any text: whatever the spacing, spelling and redundant parentheses, a text whose documented
reading is an expression of the grammar with tree `e` parses to `e`. -/
theorem C51_any_text (M : Int) (hM : 2 ≤ M) (dec) {s : List Char} {ts us : List Tok} {e : Expr} (hs : Lex M s ts)
    (hu : expand .begin ts = some us) (he : Derives 1 us e) : parse M dec s = .ok e := by
  rw [parse_lex M hM dec hs hu, parseToks_derives he]

/-- C51: the grammar gives every token sequence at most one tree. -/
theorem C51_unambiguous {ts : List Tok} {a b : Expr} (ha : Derives 1 ts a) (hb : Derives 1 ts b) : a = b :=
  ha.unique hb

/-- a leaf for examples. -/
def ex (n : Int) : Expr := .leaf (.num ⟨n, 1⟩)

example : (Expr.node '-' (.node '-' (ex 1) (ex 2)) (.node '*' (ex 3) (.node '+' (ex 4) (ex 5)))).WF ∧
    ((render 1 (.node '-' (.node '-' (ex 1) (ex 2)) (.node '*' (ex 3) (.node '+' (ex 4) (ex 5))))).flatMap
      Tok.spell) = "1-2-3*(4+5)".toList ∧
    ((render 1 (.node '^' (ex 2) (.node '^' (ex 3) (ex 4)))).flatMap Tok.spell) = "2^(3^4)".toList ∧
    ((renderFull (.node '^' (ex 2) (.node '^' (ex 3) (ex 4)))).flatMap Tok.spell) = "(2^(3^4))".toList := by
  refine ⟨by simp [Expr.WF, ex], ?_, ?_, ?_⟩ <;> decide +kernel

example (dec) : parse maxI64 dec "2^3^4".toList = .ok (.node '^' (.node '^' (ex 2) (ex 3)) (ex 4)) := by rfl

/-! ## C52 the tokeniser -/

/-- C52: a text that spells the token sequence `ts` (any spacing) is read as `ts` with `*`, `0` and root
signs expanded as documented, between the begin and end marks; when a root sign is not followed by a
number an `Error` is raised. -/
theorem C52_tokens (M : Int) (hM : 2 ≤ M) (dec) {s : List Char} {ts : List Tok} (h : Lex M s ts) :
    getAllTokens M dec s = match expand .begin ts with
      | some us => .ok (.begin :: (us ++ [.fin]))
      | none => .throw "Radical needs a rational." :=
  getAllTokens_lex M hM dec h

/-- C52: nothing is inserted when every operand is separated from the next by an operator and the text
does not start a (sub)expression with a sign: the tokens are exactly those written. -/
theorem C52_exact (M : Int) (hM : 2 ≤ M) (dec) {s : List Char} {ts : List Tok} {e : Expr} (h : Lex M s ts)
    (he : Derives 1 ts e) : getAllTokens M dec s = .ok (.begin :: (ts ++ [.fin])) := by
  rw [getAllTokens_lex M hM dec h]
  obtain ⟨last, -, h2⟩ := expand_derives he
  have h3 := h2 .begin [] (Or.inl rfl)
  rw [List.append_nil] at h3
  rw [h3]
  simp [expand]

/-- ` 2x (y)**3 -_3/5` : spacing, juxtaposition, `**` and a root. -/
example : Lex maxI64 [' ', '2', 'x', ' ', '(', 'y', ')', '*', '*', '3', ' ', '-', '_', '3', '/', '5'] [.digit ⟨2, 1⟩, .symbol ['x'], .lparen, .symbol ['y'], .rparen, .op '^',
    .digit ⟨3, 1⟩, .op '-', .radical ⟨1, 3⟩, .digit ⟨5, 1⟩] := by
  apply LexPre.space (by decide)
  refine LexPre.num (ds := ['2']) ⟨by simp, by decide⟩ (by decide) (.cons (by decide) (by decide)) ?_
  apply LexPre.letter (by decide)
  apply LexPre.space (by decide)
  apply LexPre.lparen
  apply LexPre.letter (by decide)
  apply LexPre.rparen
  apply LexPre.starstar
  refine LexPre.num (ds := ['3']) ⟨by simp, by decide⟩ (by decide) (.cons (by decide) (by decide)) ?_
  apply LexPre.space (by decide)
  refine LexPre.op (by simp) (by simp) ?_
  refine LexPre.root (ds := ['3']) ⟨by simp, by decide⟩ (by decide) (by decide) ?_
  refine LexPre.num (ds := ['5']) (s := []) ⟨by simp, by decide⟩ (by decide) ?_ .nil
  intro c hc; simp at hc

example : expand .begin [.digit ⟨2, 1⟩, .symbol ['x'], .lparen, .symbol ['y'], .rparen, .op '^',
    .digit ⟨3, 1⟩, .op '-', .radical ⟨1, 3⟩, .digit ⟨5, 1⟩] =
    some [.digit ⟨2, 1⟩, .op '*', .symbol ['x'], .op '*', .lparen, .symbol ['y'], .rparen, .op '^',
      .digit ⟨3, 1⟩, .op '-', .lparen, .digit ⟨5, 1⟩, .op '^', .digit ⟨1, 3⟩, .rparen] := by decide +kernel

/-! ## C53 malformed input -/

/-- C53 (partial): a text whose documented reading `us` has no operand directly after an operand is
accepted exactly when `us` is an expression of the grammar, with its tree, and otherwise an `Error` is
raised. Missing: texts in which a number follows an operand directly, which may be accepted
(`C53_fails`). -/
theorem C53_rejects_partial (M : Int) (hM : 2 ≤ M) (dec) {s : List Char} {ts us : List Tok} (hs : Lex M s ts)
    (hu : expand .begin ts = some us) (hg : NoGap us) :
    (∀ e, parse M dec s = .ok e ↔ Derives 1 us e) ∧
    ((¬ ∃ e, Derives 1 us e) → ∃ m, parse M dec s = .throw m) := by
  have hv := expand_valid ts.length ts le_rfl .begin us hs.valid hu
  rw [parse_lex M hM dec hs hu]
  refine ⟨parseToks_iff us hv hg, fun hn => ?_⟩
  rcases parseToks_fine us hv with ⟨e, h⟩ | h
  · exact absurd ⟨e, (parseToks_iff us hv hg e).1 h⟩ hn
  · exact h

/-- C53: a text with a character that can begin no token (outside a braced name) raises an `Error`. -/
theorem C53_unexpected_character (M : Int) (hM : 2 ≤ M) (dec) {c : Char} {z s : List Char} {ts : List Tok}
    (h : LexPre M (c :: z) s ts) (hc : Unexpected c) : ∃ m, parse M dec s = .throw m :=
  parse_unexpected M hM dec h hc

/-- C53: whatever is accepted, the operands of the tree are exactly the numbers and symbols of the
text, in order: none is lost, duplicated or invented. -/
theorem C53_operands (M : Int) (dec) (s : List Char) (e : Expr) (h : parse M dec s = .ok e) :
    ∃ toks, getAllTokens M dec s = .ok toks ∧ e.leaves = operands toks.tail.dropLast := by
  unfold parse at h
  obtain ⟨toks, h1, h⟩ := Res.bind_eq_ok.1 h
  exact ⟨toks, h1, parseToks_leaves _ _ h⟩

/-- C53: white space only, and the empty text, raise an `Error`. -/
theorem C53_blank (M : Int) (dec) (s : List Char) (h : ∀ c ∈ s, isSpace c = true) :
    parse M dec s = .throw "Invaild string." := by
  have e1 : getToken M dec s = .ok (.fin, []) := by
    unfold getToken
    rw [dropWhile_all h]
  unfold parse getAllTokens
  rw [tokLoop_step _ _ _ _ (by simp), e1, Res.bind_ok, pushTok_glue _ _ _ rfl, Res.bind_ok, glue_fin]
  simp only [List.reverse_nil, List.nil_append]
  rw [tokLoop_fin]
  rfl

/-- C53 is false in general: postfix notation, an empty pair of parentheses, a missing operator after an
unclosed parenthesis, a stray `*)`, an unclosed brace and a root sign with a wrong separator are all
accepted. -/
theorem C53_fails (dec) :
    parse maxI64 dec "1 2+".toList = .ok (.node '+' (ex 1) (ex 2)) ∧
    parse maxI64 dec "()1".toList = .ok (ex 1) ∧
    parse maxI64 dec "(1 2".toList = .ok (.node '(' (ex 1) (ex 2)) ∧
    parse maxI64 dec "*)1".toList = .ok (ex 1) ∧
    parse maxI64 dec "{abc".toList = .ok (.leaf (.sym "abc".toList)) ∧
    parse maxI64 dec "_3x8".toList = .ok (.node '^' (ex 8) (.leaf (.num ⟨1, 3⟩))) := by
  refine ⟨rfl, rfl, rfl, rfl, rfl, ?_⟩
  have h : Rational.inverse maxI64 ⟨3, 1⟩ = .ok ⟨1, 3⟩ := by decide +kernel
  have e : getToken maxI64 dec "_3x8".toList = .ok (.radical ⟨1, 3⟩, ['8']) := by
    change (do let p ← Rational.inverse maxI64 ⟨3, 1⟩; .ok (Tok.radical p, ['8']) : Res (Tok × List Char)) = _
    rw [h]; rfl
  unfold parse getAllTokens
  rw [tokLoop_step _ _ _ _ (by simp), e, Res.bind_ok, pushTok_glue _ _ _ rfl, Res.bind_ok]
  rfl

/-- `1+*2`, `(1+2`, `1+2)` and `1$2` meet the hypotheses and are rejected. -/
example : NoGap [.digit ⟨1, 1⟩, .op '+', .op '*', .digit ⟨2, 1⟩] ∧
    NoGap [.lparen, .digit ⟨1, 1⟩, .op '+', .digit ⟨2, 1⟩] ∧ Unexpected '$' := by
  refine ⟨by simp [NoGap, Tok.endsOperand, Tok.startsOperand], by simp [NoGap, Tok.endsOperand, Tok.startsOperand],
    by decide, by decide, by decide, by decide⟩
example (dec) : parse maxI64 dec "1+*2".toList = .throw "Invaild string." ∧
    parse maxI64 dec "(1+2".toList = .throw "Invaild string." ∧
    parse maxI64 dec "1+2)".toList = .throw "Expected '('" ∧
    parse maxI64 dec "1$2".toList = .throw "Unreachable code: unexpected '$'." := by
  refine ⟨rfl, rfl, rfl, by rfl⟩

/-! ## C54 defined behaviour -/

/-- C54: for every string whatsoever the parser returns a tree or raises an `Error`: no pop of an empty
stack, no unknown operator, no out-of-range access, no other exception, and the loop ends. -/
theorem C54_every_string (M : Int) (hM : 2 ≤ M) (dec) (hd : DecGood M dec) (s : List Char) :
    (∃ e, parse M dec s = .ok e) ∨ ∃ m, parse M dec s = .throw m :=
  parse_fine M hM dec hd s

/-- C54: the same for every sequence of tokens. -/
theorem C54_every_token_sequence (ts : List Tok) (h : ∀ t ∈ ts, t.Valid) :
    (∃ e, parseToks ts = .ok e) ∨ ∃ m, parseToks ts = .throw m :=
  parseToks_fine ts h

example : DecGood maxI64 (fun _ => .ok ⟨1, 2⟩) ∧ DecGood maxI64 (fun _ => .exn "out_of_range") :=
  ⟨fun _ => Or.inl ⟨_, rfl, by decide, by decide⟩, fun _ => Or.inr (Or.inr (Or.inr rfl))⟩
example (dec) : parse maxI64 dec ")))".toList = .throw "Expected '('" := by rfl

end Symxx.Parser

import Verif.Expr.TexSpec
/-!
# A TeX text has at most one reading

A deterministic translation of TeX texts into the tokens of the expression language, under which every reading of a text is
a derivation of its tokens; derivations of a token sequence are unique (`parseToks_derives`).
-/
namespace Symxx.Sym
open Symxx.Num Symxx.Parser

theorem Tex.ne_nil {k : Nat} {s : List Char} {v : Den} (h : Tex k s v) : s ≠ [] := by
  induction h with
  | num h => exact h.1
  | up _ ih => exact ih
  | juxt _ _ _ ih _ => simp [ih]
  | _ => simp

namespace TexLex

/-- what is being read: nothing, nothing after a factor that carries no superscript, a number, a control word, the index of a
root. -/
inductive Mode where
  | go | sup | num (a : Int) | name (x : List Char) | idx (a : Int) | idxEnd (a : Int)

/-- what an open brace belongs to. -/
inductive Cl where
  | grp | fracA | fracM | fracB | root (k : Int)

/-- the open braces after `{`. -/
def opened : List Cl → List Cl
  | .fracM :: k => .fracB :: k
  | k => .grp :: k

/-- the tokens for `}`, and the state after it. -/
def closing : List Cl → List Tok × Mode × List Cl
  | .grp :: k => ([.rparen], .sup, k)
  | .fracA :: k => ([.rparen, .op '/'], .go, .fracM :: k)
  | .fracB :: k => ([.rparen, .rparen], .sup, k)
  | .root q :: k => ([.rparen, .op '^', .digit ⟨1, q⟩, .rparen], .sup, k)
  | k => ([], .go, k)

/-- a character outside numbers and control words. -/
def goStep (k : List Cl) (c : Char) : List Tok × Mode × List Cl :=
  if isDig c then ([], .num ((c.toNat : Int) - 48), k)
  else if isAlpha c then ([.symbol [c]], .go, k)
  else if c = '\\' then ([], .name [], k)
  else if c = '(' then ([.lparen], .go, k)
  else if c = ')' then ([.rparen], .go, k)
  else if c = '+' ∨ c = '-' ∨ c = '^' then ([.op c], .go, k)
  else if c = '{' then ([.lparen], .go, opened k)
  else if c = '}' then closing k
  else ([.rparen, .lparen], .go, k)

/-- one character; what cannot be read becomes tokens that cannot be read. -/
def step : Mode → List Cl → Char → List Tok × Mode × List Cl
  | .go, k, c => goStep k c
  | .sup, k, c => if c = '^' then ([.op '^', .op '^'], .go, k) else goStep k c
  | .num a, k, c =>
    if isDig c then ([], .num (a * 10 + ((c.toNat : Int) - 48)), k) else (.digit ⟨a, 1⟩ :: (goStep k c).1, (goStep k c).2)
  | .name x, k, c =>
    if isAlpha c then ([], .name (x ++ [c]), k)
    else if c = ' ' then ([if x = "times".toList then Tok.op '*' else .symbol x], .go, k)
    else if c = '{' then
      if x = "frac".toList then ([.lparen, .lparen], .go, .fracA :: k) else ([.lparen, .lparen], .go, .root 2 :: k)
    else if c = '[' then ([], .idx 0, k)
    else (.symbol x :: (goStep k c).1, (goStep k c).2)
  | .idx a, k, c =>
    if isDig c then ([], .idx (a * 10 + ((c.toNat : Int) - 48)), k)
    else if c = ']' then ([], .idxEnd a, k) else ([.rparen, .lparen], .go, k)
  | .idxEnd a, k, c => if c = '{' then ([.lparen, .lparen], .go, .root a :: k) else ([.rparen, .lparen], .go, k)

/-- the tokens. -/
def run : Mode → List Cl → List Char → List Tok
  | .num a, _, [] => [.digit ⟨a, 1⟩]
  | _, _, [] => []
  | m, k, c :: cs => (step m k c).1 ++ run (step m k c).2.1 (step m k c).2.2 cs

theorem run_cons (m : Mode) (k : List Cl) (c : Char) (cs : List Char) :
    run m k (c :: cs) = (step m k c).1 ++ run (step m k c).2.1 (step m k c).2.2 cs := by cases m <;> rfl

/-- the text does not begin with a digit. -/
def NoDig (z : List Char) : Prop := ∀ c ∈ z.head?, isDig c = false

theorem NoDig.cons {c : Char} {z : List Char} (h : isDig c = false) : NoDig (c :: z) := by
  intro d hd
  simp only [List.head?_cons, Option.mem_some_iff] at hd
  exact hd ▸ h

theorem alpha_key {c : Char} (h : isAlpha c = true) : (97 ≤ c.toNat ∧ c.toNat ≤ 122) ∨ (65 ≤ c.toNat ∧ c.toNat ≤ 90) := by
  unfold isAlpha at h
  simp only [Bool.or_eq_true, Bool.and_eq_true, decide_eq_true_eq] at h
  rcases h with ⟨a, b⟩ | ⟨a, b⟩
  · exact Or.inl ⟨a, b⟩
  · exact Or.inr ⟨a, b⟩

section
variable (k : List Cl) (z : List Char)

theorem run_nil : run .go k [] = [] := rfl
theorem go_of {c : Char} {r : List Tok × Mode × List Cl} (h : goStep k c = r) : run .go k (c :: z) = r.1 ++ run r.2.1 r.2.2 z := by
  rw [run_cons]
  show (goStep k c).1 ++ _ = _
  rw [show step .go k c = goStep k c from rfl, h]
theorem run_alpha {c : Char} (h : isAlpha c = true) : run .go k (c :: z) = .symbol [c] :: run .go k z :=
  go_of k z (r := ([.symbol [c]], .go, k)) (by unfold goStep; rw [if_neg (by rw [(alpha_facts h).2.1]; simp), if_pos h])
theorem run_bs : run .go k ('\\' :: z) = run (.name []) k z := rfl
theorem run_lp : run .go k ('(' :: z) = .lparen :: run .go k z := rfl
theorem run_rp : run .go k (')' :: z) = .rparen :: run .go k z := rfl
theorem run_op {c : Char} (h : c = '+' ∨ c = '-' ∨ c = '^') : run .go k (c :: z) = .op c :: run .go k z := by
  rcases h with rfl | rfl | rfl <;> rfl
theorem run_open : run .go k ('{' :: z) = .lparen :: run .go (opened k) z := rfl
theorem run_grp (h : ∀ k', k ≠ .fracM :: k') : run .go k ('{' :: z) = .lparen :: run .go (.grp :: k) z := by
  rw [run_open]
  unfold opened
  split
  · exact absurd rfl (h _)
  · rfl
theorem run_mid : run .go (.fracM :: k) ('{' :: z) = .lparen :: run .go (.fracB :: k) z := rfl
theorem run_cl : run .go k ('}' :: z) = (closing k).1 ++ run (closing k).2.1 (closing k).2.2 z := rfl
theorem run_sup (h : z.head? ≠ some '^') : run .sup k z = run .go k z := by
  cases z with
  | nil => rfl
  | cons c z =>
    have hc : c ≠ '^' := by simpa using h
    rw [run_cons, run_cons]
    have : step .sup k c = step .go k c := if_neg hc
    rw [this]

theorem run_num {a : Int} (ds : List Char) (h : ∀ c ∈ ds, isDig c = true) (hz : NoDig z) :
    run (.num a) k (ds ++ z) = .digit ⟨ds.foldl (fun v c => v * 10 + ((c.toNat : Int) - 48)) a, 1⟩ :: run .go k z := by
  induction ds generalizing a with
  | nil =>
    cases z with
    | nil => rfl
    | cons c z =>
      have := hz c (by simp)
      have e : step (.num a) k c = (.digit ⟨a, 1⟩ :: (goStep k c).1, (goStep k c).2) := if_neg (by rw [this]; simp)
      rw [List.nil_append, run_cons, run_cons, e]
      rfl
  | cons d ds ih =>
    have e : step (.num a) k d = ([], .num (a * 10 + ((d.toNat : Int) - 48)), k) := if_pos (h d (by simp))
    rw [List.cons_append, run_cons, e]
    simp only [List.nil_append, List.foldl_cons]
    exact ih fun c hc => h c (by simp [hc])

theorem run_digits {ds : List Char} (h : Digits ds) (hz : NoDig z) :
    run .go k (ds ++ z) = .digit ⟨digVal ds, 1⟩ :: run .go k z := by
  obtain ⟨h1, h2⟩ := h
  cases ds with
  | nil => exact absurd rfl h1
  | cons d ds =>
    have e : step .go k d = ([], .num ((d.toNat : Int) - 48), k) := if_pos (h2 d (by simp))
    rw [List.cons_append, run_cons, e]
    simp only [List.nil_append]
    rw [run_num _ _ _ (fun c hc => h2 c (by simp [hc])) hz]
    simp [digVal]

theorem run_idx {a : Int} (ds : List Char) (h : ∀ c ∈ ds, isDig c = true) :
    run (.idx a) k (ds ++ ']' :: '{' :: z) =
      .lparen :: .lparen :: run .go (.root (ds.foldl (fun v c => v * 10 + ((c.toNat : Int) - 48)) a) :: k) z := by
  induction ds generalizing a with
  | nil => rfl
  | cons d ds ih =>
    have e : step (.idx a) k d = ([], .idx (a * 10 + ((d.toNat : Int) - 48)), k) := if_pos (h d (by simp))
    rw [List.cons_append, run_cons, e]
    simp only [List.nil_append, List.foldl_cons]
    exact ih fun c hc => h c (by simp [hc])

theorem run_letters {x : List Char} (y : List Char) (h : ∀ c ∈ y, isAlpha c = true) :
    run (.name x) k (y ++ z) = run (.name (x ++ y)) k z := by
  induction y generalizing x with
  | nil => simp
  | cons c y ih =>
    have e : step (.name x) k c = ([], .name (x ++ [c]), k) := if_pos (h c (by simp))
    rw [List.cons_append, run_cons, e]
    simp only [List.nil_append]
    rw [ih fun d hd => h d (by simp [hd])]
    simp

theorem run_word {y : List Char} (h : ∀ c ∈ y, isAlpha c = true) :
    run .go k ('\\' :: (y ++ z)) = run (.name y) k z := by
  rw [run_bs, run_letters k z y h, List.nil_append]

theorem name_space {x : List Char} (h : x ≠ "times".toList) : run (.name x) k (' ' :: z) = .symbol x :: run .go k z := by
  rw [run_cons]
  have e : step (.name x) k ' ' = ([.symbol x], .go, k) := by
    show ([if x = "times".toList then Tok.op '*' else .symbol x], Mode.go, k) = _
    rw [if_neg h]
  rw [e]
  rfl

end

/-- the tokens of a text. -/
def Lexes (l : Nat) (s : List Char) (v : Den) : Prop :=
  s ≠ [] ∧ ∃ (ts us : List Tok) (last : Tok) (e : Expr),
    (∀ (k : List Cl) (z : List Char), (∀ k', k ≠ .fracM :: k') → NoDig z → (l < 4 → z.head? ≠ some '^') →
      run .go k (s ++ z) = ts ++ run .go k z) ∧
    last.endsOperand = true ∧
    (∀ (prev : Tok) (rest : List Tok), prev = .begin ∨ prev = .lparen ∨ (1 ≤ l ∧ ∃ c, prev = .op c) →
      expand prev (ts ++ rest) = (expand last rest).map (us ++ ·)) ∧
    (3 ≤ l → NoDig s → ∀ (prev : Tok) (rest : List Tok), prev.endsOperand = true →
      expand prev (ts ++ rest) = (expand last rest).map (.op '*' :: us ++ ·)) ∧
    Derives (max 1 l) us e ∧ ∀ ρ, exprSem ρ e = v ρ

theorem ex_lp {prev : Tok} {rest : List Tok} :
    expand prev (.lparen :: rest) = (expand .lparen rest).map fun r => glue prev .lparen ++ .lparen :: r := rfl
theorem ex_rp {prev : Tok} {rest : List Tok} (h : prev.endsOperand = true) :
    expand prev (.rparen :: rest) = (expand .rparen rest).map fun r => .rparen :: r := by
  show (expand .rparen rest).map (fun r => glue prev .rparen ++ .rparen :: r) = _
  rw [glue_end_rparen h]; rfl
theorem ex_op {prev : Tok} {rest : List Tok} {c : Char} (h : prev.endsOperand = true) :
    expand prev (.op c :: rest) = (expand (.op c) rest).map fun r => .op c :: r := by
  show (expand (.op c) rest).map (fun r => glue prev (.op c) ++ .op c :: r) = _
  rw [glue_end_op h]; rfl
theorem ex_op_lp {rest : List Tok} {c : Char} :
    expand (.op c) (.lparen :: rest) = (expand .lparen rest).map fun r => .lparen :: r := rfl
theorem ex_lp_lp {rest : List Tok} :
    expand .lparen (.lparen :: rest) = (expand .lparen rest).map fun r => .lparen :: r := rfl
theorem ex_op_dig {rest : List Tok} {c : Char} {q : Rational} :
    expand (.op c) (.digit q :: rest) = (expand (.digit q) rest).map fun r => .digit q :: r := rfl

theorem glue_free_lp {prev : Tok} (h : prev = .begin ∨ prev = .lparen ∨ ∃ c, prev = .op c) : glue prev .lparen = [] := by
  rcases h with rfl | rfl | ⟨c, rfl⟩ <;> rfl
theorem glue_free_sym {prev : Tok} {x} (h : prev = .begin ∨ prev = .lparen ∨ ∃ c, prev = .op c) : glue prev (.symbol x) = [] := by
  rcases h with rfl | rfl | ⟨c, rfl⟩ <;> rfl
theorem glue_op_lp {prev : Tok} (h : prev.endsOperand = true) : glue prev .lparen = [.op '*'] := by
  cases prev <;> first | rfl | (simp [Tok.endsOperand] at h)
theorem glue_op_sym {prev : Tok} {x} (h : prev.endsOperand = true) : glue prev (.symbol x) = [.op '*'] := by
  cases prev <;> first | rfl | (simp [Tok.endsOperand] at h)

theorem free_of {l : Nat} {prev : Tok} (h : prev = .begin ∨ prev = .lparen ∨ (1 ≤ l ∧ ∃ c, prev = .op c)) :
    prev = .begin ∨ prev = .lparen ∨ ∃ c, prev = .op c := by
  rcases h with h | h | ⟨-, h⟩
  · exact Or.inl h
  · exact Or.inr (Or.inl h)
  · exact Or.inr (Or.inr h)

theorem noDig_append {s t : List Char} (hs : s ≠ []) (h : NoDig (s ++ t)) : NoDig s := by
  cases s with
  | nil => exact absurd rfl hs
  | cons c s => exact fun d hd => h d (by simpa using hd)
theorem noDig_of {s t : List Char} (hs : s ≠ []) (h : NoDig s) : NoDig (s ++ t) := by
  cases s with
  | nil => exact absurd rfl hs
  | cons c s => exact fun d hd => h d (by simpa using hd)

theorem name_sp {x : List Char} (h : TexName x) (k : List Cl) (z : List Char) :
    run .go k ("\\".toList ++ x ++ " ".toList ++ z) = .symbol x :: run .go k z := by
  have : "\\".toList ++ x ++ " ".toList ++ z = '\\' :: (x ++ ' ' :: z) := by simp
  rw [this, run_word _ _ h.2.1, name_space _ _ h.2.2.2.2]

theorem name_pow {x : List Char} (h : TexName x) (k : List Cl) (z : List Char) (hk : ∀ k', k ≠ .fracM :: k') :
    run .go k ("\\".toList ++ x ++ "^{".toList ++ z) = .symbol x :: .op '^' :: .lparen :: run .go (.grp :: k) z := by
  have : "\\".toList ++ x ++ "^{".toList ++ z = '\\' :: (x ++ '^' :: '{' :: z) := by simp
  rw [this, run_word _ _ h.2.1, run_cons]
  show .symbol x :: run .go k ('^' :: '{' :: z) = _
  rw [run_op _ _ (by simp), run_grp _ _ hk]

theorem tex_head {l : Nat} {s : List Char} {v : Den} (h : Tex l s v) : s.head? ≠ some '^' := by
  induction h with
  | @num ds h =>
    intro hc
    obtain ⟨h1, h2⟩ := h
    cases ds with
    | nil => exact absurd rfl h1
    | cons d ds =>
      simp only [List.head?_cons, Option.some.injEq] at hc
      have := h2 d (by simp)
      rw [hc] at this
      revert this; decide
  | @letter c h =>
    intro hc
    simp only [List.head?_cons, Option.some.injEq] at hc
    rw [hc] at h
    revert h; decide
  | up _ ih => exact ih
  | @pow s t v w h _ ih _ =>
    obtain ⟨c, s', rfl⟩ := List.exists_cons_of_ne_nil h.ne_nil
    simpa using ih
  | @juxt s t v w h _ _ ih _ =>
    obtain ⟨c, s', rfl⟩ := List.exists_cons_of_ne_nil h.ne_nil
    simpa using ih
  | @times s t v w h _ ih _ =>
    obtain ⟨c, s', rfl⟩ := List.exists_cons_of_ne_nil h.ne_nil
    simpa using ih
  | @add l s t v w _ h _ ih _ =>
    obtain ⟨c, s', rfl⟩ := List.exists_cons_of_ne_nil h.ne_nil
    simpa using ih
  | @sub l s t v w _ h _ ih _ =>
    obtain ⟨c, s', rfl⟩ := List.exists_cons_of_ne_nil h.ne_nil
    simpa using ih
  | _ => simp

theorem root_lexes (k : Int) (hk : 0 < k) {s t : List Char} (hne : t ≠ []) {ts us : List Tok} {last : Tok} {e : Expr} {v : Den}
    (a2 : last.endsOperand = true)
    (a3 : ∀ (prev : Tok) (rest : List Tok), prev = .begin ∨ prev = .lparen ∨ (1 ≤ 0 ∧ ∃ c, prev = .op c) →
      expand prev (ts ++ rest) = (expand last rest).map (us ++ ·))
    (a5 : Derives (max 1 0) us e)
    (hr : ∀ (c : List Cl) (z : List Char), (∀ c', c ≠ .fracM :: c') → z.head? ≠ some '^' → run .go c (t ++ z) =
      .lparen :: .lparen :: (ts ++ (.rparen :: .op '^' :: .digit ⟨1, k⟩ :: .rparen :: run .go c z)))
    (hv : ∀ ρ, ((exprSem ρ e).bind fun x => opSem '^' x (1 / (k : ℝ))) = v ρ) : Lexes 3 t v := by
  have e1 : ∀ rest, .lparen :: .lparen :: (ts ++ [.rparen, .op '^', .digit ⟨1, k⟩, .rparen]) ++ rest =
    Tok.lparen :: .lparen :: (ts ++ (.rparen :: .op '^' :: .digit ⟨1, k⟩ :: .rparen :: rest)) := by simp
  have tail : ∀ (prev : Tok) (rest : List Tok),
      expand prev (.lparen :: .lparen :: (ts ++ (.rparen :: .op '^' :: .digit ⟨1, k⟩ :: .rparen :: rest))) =
      (expand .rparen rest).map fun r => glue prev .lparen ++ .lparen :: .lparen :: (us ++ .rparen :: .op '^' :: .digit ⟨1, k⟩ ::
        .rparen :: r) := by
    intro prev rest
    rw [ex_lp, ex_lp_lp, a3 _ _ (Or.inr (Or.inl rfl)), ex_rp a2, ex_op rfl, ex_op_dig, ex_rp rfl]
    cases expand .rparen rest <;> simp
  refine ⟨hne, .lparen :: .lparen :: (ts ++ [.rparen, .op '^', .digit ⟨1, k⟩, .rparen]),
    .lparen :: .lparen :: (us ++ [.rparen, .op '^', .digit ⟨1, k⟩, .rparen]), .rparen, .node '^' e (.leaf (.num ⟨1, k⟩)), ?_, rfl, ?_, ?_, ?_, ?_⟩
  · intro c z hc hz h4
    rw [hr c z hc (h4 (by omega))]
    simp
  · intro prev rest hp
    rw [e1, tail, glue_free_lp (free_of hp)]
    cases expand .rparen rest <;> simp
  · intro _ hn prev rest hp
    rw [e1, tail, glue_op_lp hp]
    cases expand .rparen rest <;> simp
  · have := Derives.bin (l := 3) .power ((Derives.paren a5).down (by omega) (by omega)) (Derives.num ⟨1, k⟩)
    have := (Derives.paren (this.down (l := 1) (by omega) (by omega))).down (l := 3) (by omega) (by omega)
    simpa using this
  · intro ρ
    rw [← hv ρ]
    have : k ≠ 0 := hk.ne'
    show ((exprSem ρ e).bind fun x => (exprSem ρ (.leaf (.num ⟨1, k⟩))).bind fun y => opSem '^' x y) = _
    simp [exprSem, this, Rational.val]

theorem bin_lexes {l m : Nat} {q : List Char} (c : Char) (hm : 1 ≤ m) {s t : List Char} {v w : Den} (h1 : Lexes l s v)
    (h2 : Lexes m t w) (hr : ∀ (k : List Cl) (z : List Char), (∀ k', k ≠ .fracM :: k') → run .go k (q ++ z) = .op c :: run .go k z)
    (ho : OpAt (max 1 l) c) (hq : ∃ d u, q = d :: u ∧ isDig d = false ∧ d ≠ '^') (hlm : max 1 l + 1 = max 1 m := by omega) (hl : ¬ 3 ≤ l := by omega) :
    Lexes l (s ++ q ++ t) (opV c v w) := by
  obtain ⟨hne, ts, us, last, e, a1, a2, a3, -, a5, a6⟩ := h1
  obtain ⟨hne', ts', us', last', e', b1, b2, b3, b4, b5, b6⟩ := h2
  refine ⟨by simp [hne], ts ++ .op c :: ts', us ++ .op c :: us', last', .node c e e', ?_, b2, ?_, fun h => by omega,
    .bin ho a5 (hlm ▸ b5), ?_⟩
  · intro k z hk hz h4
    obtain ⟨d, u, rfl, hd, hd'⟩ := hq
    have e1 : s ++ (d :: u) ++ t ++ z = s ++ ((d :: u) ++ (t ++ z)) := by simp
    rw [e1, a1 k (d :: u ++ (t ++ z)) hk (show NoDig (d :: (u ++ (t ++ z))) from .cons hd)
      (fun _ => by simpa using hd'), hr k _ hk, b1 k z hk hz fun _ => h4 (by omega)]
    simp
  · intro prev rest hp
    have e1 : ts ++ .op c :: ts' ++ rest = ts ++ (.op c :: (ts' ++ rest)) := by simp
    rw [e1, a3 _ _ hp, ex_op a2, b3 _ _ (Or.inr (Or.inr ⟨hm, c, rfl⟩))]
    cases expand last' rest <;> simp
  · intro ρ
    show ((exprSem ρ e).bind fun x => (exprSem ρ e').bind fun y => opSem c x y) = _
    rw [a6, b6]
    rfl

theorem lexes {l : Nat} {s : List Char} {v : Den} (h : Tex l s v) : Lexes l s v := by
  induction h with
  | @num ds hd =>
    refine ⟨hd.1, [.digit ⟨digVal ds, 1⟩], [.digit ⟨digVal ds, 1⟩], .digit ⟨digVal ds, 1⟩, .leaf (.num ⟨digVal ds, 1⟩), ?_, rfl, ?_, ?_,
      .num _, ?_⟩
    · intro k z _ hz _
      exact run_digits k z hd hz
    · rintro prev rest (rfl | rfl | ⟨-, c, rfl⟩) <;> rfl
    · intro _ hn
      obtain ⟨h1, h2⟩ := hd
      cases ds with
      | nil => exact absurd rfl h1
      | cons d ds =>
        have := hn d (by simp)
        rw [h2 d (by simp)] at this
        exact Bool.noConfusion this
    · intro ρ
      simp [exprSem, Rational.val]
  | @letter c hc =>
    refine ⟨by simp, [.symbol [c]], [.symbol [c]], .symbol [c], .leaf (.sym [c]), ?_, rfl, ?_, ?_, .sym _, fun ρ => rfl⟩
    · intro k z _ hz _
      exact run_alpha k z hc
    · rintro prev rest (rfl | rfl | ⟨-, c, rfl⟩) <;> rfl
    · intro _ _ prev rest hp
      show (expand (.symbol [c]) rest).map (fun r => glue prev (.symbol [c]) ++ .symbol [c] :: r) = _
      rw [glue_op_sym hp]; rfl
  | @name x hx =>
    refine ⟨by simp, [.symbol x], [.symbol x], .symbol x, .leaf (.sym x), ?_, rfl, ?_, ?_, .sym _, fun ρ => rfl⟩
    · intro k z _ hz _
      exact name_sp hx k z
    · rintro prev rest (rfl | rfl | ⟨-, c, rfl⟩) <;> rfl
    · intro _ _ prev rest hp
      show (expand (.symbol x) rest).map (fun r => glue prev (.symbol x) ++ .symbol x :: r) = _
      rw [glue_op_sym hp]; rfl
  | @paren s v _ ih =>
    obtain ⟨-, ts, us, last, e, a1, a2, a3, -, a5, a6⟩ := ih
    have key : ∀ (prev : Tok) (rest : List Tok), expand prev (.lparen :: (ts ++ [.rparen]) ++ rest) =
        (expand .rparen rest).map fun r => glue prev .lparen ++ (.lparen :: (us ++ [.rparen]) ++ r) := by
      intro prev rest
      have e1 : .lparen :: (ts ++ [.rparen]) ++ rest = Tok.lparen :: (ts ++ (.rparen :: rest)) := by simp
      rw [e1, ex_lp, a3 _ _ (Or.inr (Or.inl rfl)), ex_rp a2]
      cases expand .rparen rest <;> simp
    refine ⟨by simp, .lparen :: (ts ++ [.rparen]), .lparen :: (us ++ [.rparen]), .rparen, e, ?_, rfl, ?_, ?_, (show Derives 4 _ _ from .paren a5), a6⟩
    · intro k z hk hz h4
      have : "(".toList ++ s ++ ")".toList ++ z = '(' :: (s ++ (')' :: z)) := by simp
      rw [this, run_lp, a1 k _ hk (.cons (by decide)) (by simp), run_rp]
      simp
    · intro prev rest hp
      rw [key, glue_free_lp (free_of hp)]
      rfl
    · intro _ _ prev rest hp
      rw [key, glue_op_lp hp]
      rfl
  | @pow s t v w _ _ ih1 ih2 =>
    obtain ⟨hne, ts, us, last, e, a1, a2, a3, a4, a5, a6⟩ := ih1
    obtain ⟨-, ts', us', last', e', b1, b2, b3, -, b5, b6⟩ := ih2
    have tail : ∀ rest : List Tok, expand last (.op '^' :: .lparen :: (ts' ++ .rparen :: rest)) =
        (expand .rparen rest).map fun r => .op '^' :: .lparen :: us' ++ .rparen :: r := by
      intro rest
      rw [ex_op a2, ex_op_lp, b3 _ _ (Or.inr (Or.inl rfl)), ex_rp b2]
      cases expand .rparen rest <;> simp
    refine ⟨by simp, ts ++ .op '^' :: .lparen :: (ts' ++ [.rparen]), us ++ .op '^' :: (.lparen :: (us' ++ [.rparen])), .rparen,
      .node '^' e e', ?_, rfl, ?_, ?_, (show Derives 3 _ _ from .bin .power (a5.down (by omega) (by omega)) (.paren b5)), ?_⟩
    · intro k z hk hz h4
      have : s ++ "^{".toList ++ t ++ "}".toList ++ z = s ++ ('^' :: '{' :: (t ++ '}' :: z)) := by simp
      rw [this, a1 k _ hk (.cons (by decide)) (by simp), run_op _ _ (by simp), run_grp _ _ hk, b1 _ _ (by simp) (.cons (by decide)) (by simp), run_cl]
      simp only [closing]
      rw [run_sup k z (h4 (by omega))]
      simp
    · intro prev rest hp
      have hp' : prev = .begin ∨ prev = .lparen ∨ (1 ≤ 4 ∧ ∃ c, prev = .op c) := by
        rcases hp with h | h | ⟨-, h⟩
        · exact Or.inl h
        · exact Or.inr (Or.inl h)
        · exact Or.inr (Or.inr ⟨by omega, h⟩)
      have e1 : ts ++ .op '^' :: .lparen :: (ts' ++ [.rparen]) ++ rest = ts ++ (.op '^' :: .lparen :: (ts' ++ .rparen :: rest)) := by
        simp
      rw [e1, a3 _ _ hp', tail]
      cases expand .rparen rest <;> simp
    · intro _ hn prev rest hp
      have e1 : ts ++ .op '^' :: .lparen :: (ts' ++ [.rparen]) ++ rest = ts ++ (.op '^' :: .lparen :: (ts' ++ .rparen :: rest)) := by
        simp
      rw [e1, a4 (by omega) (noDig_append hne (by simpa using hn)) _ _ hp, tail]
      cases expand .rparen rest <;> simp
    · intro ρ
      show ((exprSem ρ e).bind fun x => (exprSem ρ e').bind fun y => opSem '^' x y) = _
      rw [a6, b6]
      rfl
  | @powName x t w hx _ ih2 =>
    obtain ⟨-, ts', us', last', e', b1, b2, b3, -, b5, b6⟩ := ih2
    have tail : ∀ (prev : Tok) (rest : List Tok), expand prev (.symbol x :: .op '^' :: .lparen :: (ts' ++ .rparen :: rest)) =
        (expand .rparen rest).map fun r => glue prev (.symbol x) ++ .symbol x :: .op '^' :: .lparen :: us' ++ .rparen :: r := by
      intro prev rest
      show (expand (.symbol x) (.op '^' :: .lparen :: (ts' ++ .rparen :: rest))).map (fun r => glue prev (.symbol x) ++ .symbol x :: r) = _
      rw [ex_op rfl, ex_op_lp, b3 _ _ (Or.inr (Or.inl rfl)), ex_rp b2]
      cases expand .rparen rest <;> simp
    have e1 : ∀ rest, .symbol x :: .op '^' :: .lparen :: (ts' ++ [.rparen]) ++ rest =
      Tok.symbol x :: (.op '^' :: .lparen :: (ts' ++ .rparen :: rest)) := by simp
    refine ⟨by simp, .symbol x :: .op '^' :: .lparen :: (ts' ++ [.rparen]), .symbol x :: .op '^' :: (.lparen :: (us' ++ [.rparen])), .rparen,
      .node '^' (.leaf (.sym x)) e', ?_, rfl, ?_, ?_, (show Derives 3 _ _ from Derives.bin (ts := [.symbol x]) .power ((Derives.sym x).down (by omega) (by omega)) (.paren b5)), ?_⟩
    · intro k z hk hz h4
      have : "\\".toList ++ x ++ "^{".toList ++ t ++ "}".toList ++ z = "\\".toList ++ x ++ "^{".toList ++ (t ++ ('}' :: z)) := by simp
      rw [this, name_pow hx k _ hk, b1 _ _ (by simp) (.cons (by decide)) (by simp), run_cl]
      simp only [closing]
      rw [run_sup k z (h4 (by omega))]
      simp
    · intro prev rest hp
      rw [e1, tail, glue_free_sym (free_of hp)]
      cases expand .rparen rest <;> simp
    · intro _ hn prev rest hp
      rw [e1, tail, glue_op_sym hp]
      cases expand .rparen rest <;> simp
    · intro ρ
      show ((exprSem ρ (.leaf (.sym x))).bind fun x => (exprSem ρ e').bind fun y => opSem '^' x y) = _
      rw [b6]
      rfl
  | @frac s t v w _ _ ih1 ih2 =>
    obtain ⟨-, ts, us, last, e, a1, a2, a3, -, a5, a6⟩ := ih1
    obtain ⟨-, ts', us', last', e', b1, b2, b3, -, b5, b6⟩ := ih2
    have e1 : ∀ rest, .lparen :: .lparen :: (ts ++ .rparen :: .op '/' :: .lparen :: (ts' ++ [.rparen, .rparen])) ++ rest =
      Tok.lparen :: .lparen :: (ts ++ (.rparen :: .op '/' :: .lparen :: (ts' ++ (.rparen :: .rparen :: rest)))) := by simp
    have tail : ∀ (prev : Tok) (rest : List Tok),
        expand prev (.lparen :: .lparen :: (ts ++ (.rparen :: .op '/' :: .lparen :: (ts' ++ (.rparen :: .rparen :: rest))))) =
        (expand .rparen rest).map fun r => glue prev .lparen ++ .lparen :: .lparen :: (us ++ .rparen :: .op '/' :: .lparen :: (us' ++
          .rparen :: .rparen :: r)) := by
      intro prev rest
      rw [ex_lp, ex_lp_lp, a3 _ _ (Or.inr (Or.inl rfl)), ex_rp a2, ex_op rfl, ex_op_lp, b3 _ _ (Or.inr (Or.inl rfl)), ex_rp b2, ex_rp rfl]
      cases expand .rparen rest <;> simp
    refine ⟨by simp, .lparen :: .lparen :: (ts ++ .rparen :: .op '/' :: .lparen :: (ts' ++ [.rparen, .rparen])),
      .lparen :: .lparen :: (us ++ .rparen :: .op '/' :: .lparen :: (us' ++ [.rparen, .rparen])), .rparen,
      .node '/' e e', ?_, rfl, ?_, ?_, ?_, ?_⟩
    · intro k z hk hz h4
      have : "\\frac{".toList ++ s ++ "}{".toList ++ t ++ "}".toList ++ z = '\\' :: ("frac".toList ++ ('{' :: (s ++ ('}' :: '{' :: (t ++ ('}' :: z)))))) := by simp
      rw [this, run_word _ _ (by decide)]
      show .lparen :: .lparen :: run .go (.fracA :: k) (s ++ ('}' :: '{' :: (t ++ ('}' :: z)))) = _
      rw [a1 _ _ (by simp) (.cons (by decide)) (by simp), run_cl]
      simp only [closing]
      rw [run_mid, b1 _ _ (by simp) (.cons (by decide)) (by simp), run_cl]
      simp only [closing]
      rw [run_sup k z (h4 (by omega))]
      simp
    · intro prev rest hp
      rw [e1, tail, glue_free_lp (free_of hp)]
      cases expand .rparen rest <;> simp
    · intro _ hn prev rest hp
      rw [e1, tail, glue_op_lp hp]
      cases expand .rparen rest <;> simp
    · have := Derives.bin (l := 2) .divide ((Derives.paren a5).down (by omega) (by omega)) ((Derives.paren b5).down (l := 3) (by omega) (by omega))
      have := (Derives.paren (this.down (l := 1) (by omega) (by omega))).down (l := 3) (by omega) (by omega)
      simpa using this
    · intro ρ
      show ((exprSem ρ e).bind fun x => (exprSem ρ e').bind fun y => opSem '/' x y) = _
      rw [a6, b6]
      rfl
  | @sqrt s v _ ih1 =>
    obtain ⟨-, ts, us, last, e, a1, a2, a3, -, a5, a6⟩ := ih1
    exact root_lexes 2 (by norm_num) (s := s) (t := "\\sqrt{".toList ++ s ++ "}".toList) (by simp) a2 a3 a5 (fun k z hk hz => by
      have : "\\sqrt{".toList ++ s ++ "}".toList ++ z = '\\' :: ("sqrt".toList ++ ('{' :: (s ++ ('}' :: z)))) := by simp
      rw [this, run_word _ _ (by decide)]
      show .lparen :: .lparen :: run .go (.root 2 :: k) (s ++ ('}' :: z)) = _
      rw [a1 _ _ (by simp) (.cons (by decide)) (by simp), run_cl]
      simp only [closing]
      rw [run_sup k z hz]
      simp) (fun ρ => by rw [a6]; simp [opV])
  | @root ds s v hd h0 _ ih1 =>
    obtain ⟨-, ts, us, last, e, a1, a2, a3, -, a5, a6⟩ := ih1
    exact root_lexes (digVal ds) h0 (s := s) (t := "\\sqrt[".toList ++ ds ++ "]{".toList ++ s ++ "}".toList) (by simp) a2 a3 a5 (fun k z hk hz => by
      have : "\\sqrt[".toList ++ ds ++ "]{".toList ++ s ++ "}".toList ++ z =
        '\\' :: ("sqrt".toList ++ ('[' :: (ds ++ (']' :: '{' :: (s ++ ('}' :: z)))))) := by simp
      rw [this, run_word _ _ (by decide)]
      show run (.idx 0) k (ds ++ (']' :: '{' :: (s ++ ('}' :: z)))) = _
      rw [run_idx _ _ _ hd.2, a1 _ _ (by simp) (.cons (by decide)) (by simp), run_cl]
      simp only [closing]
      rw [run_sup k z hz]
      simp [digVal]) (fun ρ => by rw [a6]; simp [opV])
  | @juxt s t v w _ h2 hnd ih1 ih2 =>
    obtain ⟨hne, ts, us, last, e, a1, a2, a3, -, a5, a6⟩ := ih1
    obtain ⟨hne', ts', us', last', e', b1, b2, b3, b4, b5, b6⟩ := ih2
    refine ⟨by simp [hne], ts ++ ts', us ++ .op '*' :: us', last', .node '*' e e', ?_, b2, ?_, fun h => by omega, .bin .times a5 b5, ?_⟩
    · intro k z hk hz h4
      rw [List.append_assoc, a1 k _ hk (noDig_of hne' hnd) (fun _ => ?_), b1 k z hk hz (fun _ => h4 (by omega)), List.append_assoc]
      have := tex_head h2
      cases t with
      | nil => exact absurd rfl hne'
      | cons c t => simpa using this
    · intro prev rest hp
      rw [List.append_assoc, a3 _ _ hp, b4 (by omega) hnd _ _ a2]
      cases expand last' rest <;> simp
    · intro ρ
      show ((exprSem ρ e).bind fun x => (exprSem ρ e').bind fun y => opSem '*' x y) = _
      rw [a6, b6]
      rfl
  | @times s t v w _ _ ih1 ih2 =>
    refine bin_lexes (l := 2) (m := 3) (q := "\\times ".toList) '*' (by omega) ih1 ih2 (fun k z hk => ?_) .times ⟨_, _, rfl, by decide, by decide⟩
    have : "\\times ".toList ++ z = '\\' :: ("times".toList ++ (' ' :: z)) := by simp
    rw [this, run_word _ _ (by decide)]
    rfl
  | @add l s t v w hl _ _ ih1 ih2 =>
    exact bin_lexes (l := l) (m := 2) (q := "+".toList) '+' (by omega) ih1 ih2 (fun k z hk => run_op _ _ (by decide)) (by
      rw [show max 1 l = 1 by omega]; exact .plus) ⟨_, _, rfl, by decide, by decide⟩
  | @sub l s t v w hl _ _ ih1 ih2 =>
    exact bin_lexes (l := l) (m := 2) (q := "-".toList) '-' (by omega) ih1 ih2 (fun k z hk => run_op _ _ (by decide)) (by
      rw [show max 1 l = 1 by omega]; exact .minus) ⟨_, _, rfl, by decide, by decide⟩
  | @neg s v _ ih =>
    obtain ⟨hne, ts, us, last, e, a1, a2, a3, -, a5, a6⟩ := ih
    refine ⟨by simp, .op '-' :: ts, .digit ⟨0, 1⟩ :: .op '-' :: us, last, .node '-' (.leaf (.num ⟨0, 1⟩)) e, ?_, a2, ?_,
      fun h => by omega, Derives.bin (ts := [.digit ⟨0, 1⟩]) .minus ((Derives.num _).down (by omega) (by omega)) a5, ?_⟩
    · intro k z hk hz h4
      have : "-".toList ++ s ++ z = '-' :: (s ++ z) := by simp
      rw [this, run_op _ _ (by simp), a1 k z hk hz (fun _ => h4 (by omega))]
      rfl
    · intro prev rest hp
      have hp' : prev = .begin ∨ prev = .lparen := by
        rcases hp with hp | hp | ⟨hp, -⟩
        · exact Or.inl hp
        · exact Or.inr hp
        · omega
      have e2 : expand prev (.op '-' :: ts ++ rest) =
        (expand (.op '-') (ts ++ rest)).map fun r => glue prev (.op '-') ++ .op '-' :: r := rfl
      rw [e2, a3 _ _ (Or.inr (Or.inr ⟨by omega, _, rfl⟩)),
        show glue prev (.op '-') = [.digit ⟨0, 1⟩] by rcases hp' with rfl | rfl <;> rfl]
      cases expand last rest <;> simp
    · intro ρ
      show ((exprSem ρ (.leaf (.num ⟨0, 1⟩))).bind fun x => (exprSem ρ e).bind fun y => opSem '-' x y) = _
      rw [a6]
      simp [exprSem, Rational.val, opV]
  | @up l s v _ ih =>
    obtain ⟨hne, ts, us, last, e, a1, a2, a3, a4, a5, a6⟩ := ih
    refine ⟨hne, ts, us, last, e, fun k z hk hz h4 => a1 k z hk hz fun _ => h4 (by omega), a2, ?_, fun h => a4 (by omega), a5.down (by omega) (by omega), a6⟩
    intro prev rest hp
    refine a3 prev rest ?_
    rcases hp with h | h | ⟨-, h⟩
    · exact Or.inl h
    · exact Or.inr (Or.inl h)
    · exact Or.inr (Or.inr ⟨by omega, h⟩)

end TexLex

/-- the reading of a text, computed. -/
def texRead (s : List Char) : Option (Res Expr) := (expand .begin (TexLex.run .go [] s)).map parseToks

/-- a text that has a reading is read by `texRead`. -/
theorem Tex.read {s : List Char} {v : Den} (h : Tex 0 s v) : ∃ e, texRead s = some (.ok e) ∧ ∀ ρ, exprSem ρ e = v ρ := by
  obtain ⟨-, ts, us, last, e, a1, -, a3, -, a5, a6⟩ := TexLex.lexes h
  have t1 := a1 [] [] (by simp) (by intro c hc; simp at hc) (by simp)
  have x1 := a3 .begin [] (Or.inl rfl)
  simp only [List.append_nil, TexLex.run_nil] at t1 x1
  refine ⟨e, ?_, a6⟩
  unfold texRead
  rw [t1, x1]
  simp only [expand, Option.map_some, List.append_nil, Option.some.injEq]
  exact parseToks_derives a5

/-- a text has at most one reading. -/
theorem Tex.unique {s : List Char} {v w : Den} (h : Tex 0 s v) (h' : Tex 0 s w) : v = w := by
  obtain ⟨e, e1, e2⟩ := h.read
  obtain ⟨f, f1, f2⟩ := h'.read
  rw [e1] at f1
  injection f1 with f1
  injection f1 with f1
  subst f1
  funext ρ
  rw [← e2, ← f2]

end Symxx.Sym

import Verif.Parser.Shunt
import Verif.Parser.Spec
import Mathlib.Tactic.Ring
/-!
# Which token sequences are accepted

Without a missing operator between two operands, exactly those of the grammar.
-/
namespace Symxx.Parser
open Symxx.Num

/-! ### sequences alternating operands and operators, with balanced parentheses -/

/-- `Alt a p ts`: `ts` may follow when an operand has just ended (`a`) or is expected (`!a`), with `p`
parentheses open. -/
inductive Alt : Bool → Nat → List Tok → Prop
  | nil : Alt true 0 []
  | op {p c ts} : (c = '+' ∨ c = '-' ∨ c = '*' ∨ c = '/' ∨ c = '^') → Alt false p ts → Alt true p (.op c :: ts)
  | close {p ts} : Alt true p ts → Alt true (p + 1) (.rparen :: ts)
  | openp {p ts} : Alt false (p + 1) ts → Alt false p (.lparen :: ts)
  | digit {p q ts} : Alt true p ts → Alt false p (.digit q :: ts)
  | symbol {p x ts} : Alt true p ts → Alt false p (.symbol x :: ts)

/-- appending an operator and an atom on the right keeps an expression an expression. -/
theorem Derives.append_atom {l : Nat} {ts : List Tok} {a : Expr} (h : Derives l ts a) (hl : 1 ≤ l) {m : Nat} {c : Char}
    (hc : OpAt m c) {us : List Tok} {b : Expr} (hb : Derives 4 us b) :
    ∃ e, Derives (min l m) (ts ++ .op c :: us) e := by
  obtain ⟨m1, m3⟩ := hc.range
  by_cases hm : m ≤ l
  · rw [Nat.min_eq_right hm]
    exact ⟨_, .bin hc (h.down m1 hm) (hb.lift (by omega) (by omega))⟩
  · rw [Nat.min_eq_left (by omega)]
    induction h generalizing us b with
    | num q => omega
    | sym q => omega
    | paren _ _ => omega
    | @up l ts e h1 h2 ih =>
      by_cases hm' : m ≤ l + 1
      · obtain rfl : m = l + 1 := by omega
        exact ⟨_, .up h1 (.bin hc h2 (hb.lift (by omega) (by omega)))⟩
      · obtain ⟨e, he⟩ := ih (by omega) hb hm'
        exact ⟨e, .up h1 he⟩
    | @bin l c' ts us' a' b' hop ha hb' iha ihb =>
      by_cases hm' : m ≤ l + 1
      · obtain rfl : m = l + 1 := by omega
        refine ⟨.node c' a' (.node c b' b), ?_⟩
        rw [List.append_assoc, List.cons_append]
        exact .bin hop ha (.bin hc hb' (hb.lift (by omega) (by omega)))
      · obtain ⟨e, he⟩ := ihb (by omega) hb hm'
        refine ⟨.node c' a' e, ?_⟩
        rw [List.append_assoc, List.cons_append]
        exact .bin hop ha he

/-- what precedes an operand at one parenthesis level: nothing, or an expression and an operator. -/
def Pending : Option (List Tok × Char) → Prop
  | none => True
  | some (pre, c) => (∃ a, Derives 1 pre a) ∧ ∃ m, OpAt m c

def Pending.toks : Option (List Tok × Char) → List Tok
  | none => []
  | some (pre, c) => pre ++ [.op c]

theorem Pending.complete {k : Option (List Tok × Char)} (hk : Pending k) {us : List Tok} {b : Expr}
    (hb : Derives 4 us b) : ∃ e, Derives 1 (Pending.toks k ++ us) e := by
  cases k with
  | none => exact ⟨b, by simpa [Pending.toks] using hb.lift (by omega) (by omega)⟩
  | some k =>
    obtain ⟨pre, c⟩ := k
    obtain ⟨⟨a, ha⟩, m, hm⟩ := hk
    obtain ⟨e, he⟩ := ha.append_atom le_rfl hm hb
    have := hm.range
    rw [Nat.min_eq_left (by omega)] at he
    exact ⟨e, by simpa [Pending.toks] using he⟩

/-- the text before the current level. -/
def outer : List (Option (List Tok × Char)) → List Tok
  | [] => []
  | k :: ks => outer ks ++ (Pending.toks k ++ [.lparen])

theorem alt_derives_aux (ts : List Tok) : ∀ (a : Bool) (p : Nat), Alt a p ts →
    ∀ (K : List (Option (List Tok × Char))), K.length = p → (∀ k ∈ K, Pending k) →
    (a = true → ∀ cur, (∃ e, Derives 1 cur e) → ∃ e, Derives 1 (outer K ++ cur ++ ts) e) ∧
    (a = false → ∀ k, Pending k → ∃ e, Derives 1 (outer K ++ Pending.toks k ++ ts) e) := by
  intro a p h
  induction h with
  | nil =>
    intro K hK hP
    obtain rfl := List.length_eq_zero_iff.1 hK
    refine ⟨fun _ cur hc => by simpa [outer] using hc, by simp⟩
  | @op p c ts hc _ ih =>
    intro K hK hP
    refine ⟨fun _ cur hcur => ?_, by simp⟩
    have := (ih K hK hP).2 rfl (some (cur, c)) ⟨hcur, _, opAt_level hc⟩
    simpa [Pending.toks] using this
  | @close p ts _ ih =>
    intro K hK hP
    refine ⟨fun _ cur hcur => ?_, by simp⟩
    cases K with
    | nil => simp at hK
    | cons k K =>
      obtain ⟨e, he⟩ := hcur
      obtain ⟨e', he'⟩ := (hP k (by simp)).complete (.paren he)
      have := (ih K (by simpa using hK) (fun k hk => hP k (by simp [hk]))).1 rfl _ ⟨e', he'⟩
      simpa [outer] using this
  | @openp p ts _ ih =>
    intro K hK hP
    refine ⟨by simp, fun _ k hk => ?_⟩
    have := (ih (k :: K) (by simp [hK]) (by simpa using ⟨hk, hP⟩)).2 rfl none trivial
    simpa [outer, Pending.toks] using this
  | @digit p q ts _ ih =>
    intro K hK hP
    refine ⟨by simp, fun _ k hk => ?_⟩
    have := (ih K hK hP).1 rfl _ (hk.complete (.num q))
    simpa using this
  | @symbol p q ts _ ih =>
    intro K hK hP
    refine ⟨by simp, fun _ k hk => ?_⟩
    have := (ih K hK hP).1 rfl _ (hk.complete (.sym q))
    simpa using this

theorem alt_derives {ts : List Tok} (h : Alt false 0 ts) : ∃ e, Derives 1 ts e := by
  have := (alt_derives_aux ts false 0 h [] rfl (by simp)).2 rfl none trivial
  simpa [outer, Pending.toks] using this

/-! ### counting -/

/-- the number of open parentheses on the operator stack. -/
def parens (ops : List Char) : Nat := ops.count '('

theorem parens_le (ops : List Char) : parens ops ≤ ops.length := List.count_le_length

theorem handle_count {s t : St} (h : handle s = .ok t) :
    s.nodes ≠ [] ∧ t.nodes ≠ [] ∧ (t.nodes.length : Int) - t.ops.length = s.nodes.length - s.ops.length ∧
      ∃ o, s.ops = o :: t.ops := by
  obtain ⟨ns, os⟩ := s
  unfold handle at h
  split at h
  · rename_i r l ns' o os' e1 e2
    injection h with h
    subst h
    simp only at e1 e2
    subst e1 e2
    simp only [List.length_cons, ne_eq, reduceCtorEq, not_false_eq_true, true_and]
    exact ⟨by push_cast; ring, o, rfl⟩
  · cases h

theorem prio_pos {c : Char} (hc : c = '+' ∨ c = '-' ∨ c = '*' ∨ c = '/' ∨ c = '^') : Known c ∧ 0 < prio c := by
  rcases hc with rfl | rfl | rfl | rfl | rfl <;> exact ⟨by simp [Known], by decide⟩

theorem popWhile_count {c : Char} (hc : c = '+' ∨ c = '-' ∨ c = '*' ∨ c = '/' ∨ c = '^') (ops : List Char) :
    ∀ (ns : List Expr) (t : St), (∀ o ∈ ops, Known o) → popWhile c ns ops = .ok t →
    (t.nodes.length : Int) - t.ops.length = ns.length - ops.length ∧ parens t.ops = parens ops ∧
      (ns = [] ↔ t.nodes = []) ∧ (∀ o ∈ t.ops, Known o) := by
  obtain ⟨hk, hp⟩ := prio_pos hc
  induction ops with
  | nil =>
    intro ns t _ h
    unfold popWhile at h
    injection h with h; subst h
    simp
  | cons o os ih =>
    intro ns t hK h
    unfold popWhile at h
    rw [greatOrEqual_eq (hK o (by simp)) hk] at h
    simp only [Res.bind_ok] at h
    split at h
    · rename_i hge
      obtain ⟨s, hs, h⟩ := Res.bind_eq_ok.1 h
      obtain ⟨a1, a2, a3, o', a4⟩ := handle_count hs
      simp only at a1 a3 a4
      injection a4 with b1 b2
      have ho : o ≠ '(' := by
        rintro rfl
        have : prio '(' = 0 := by decide
        have h' := of_decide_eq_true hge
        omega
      obtain ⟨g1, g2, g3, g4⟩ := ih s.nodes t (fun x hx => hK x (by simp [hx])) h
      refine ⟨?_, ?_, ?_, g4⟩
      · rw [g1]; rw [← b2] at a3; exact a3
      · rw [g2]; unfold parens; rw [List.count_cons_of_ne ho]
      · constructor
        · intro e; exact absurd e a1
        · intro e; exact absurd (g3.2 e) a2
    · injection h with h; subst h
      exact ⟨rfl, rfl, Iff.rfl, hK⟩

theorem closeParen_count (ops : List Char) : ∀ (ns : List Expr) (t : St), closeParen ns ops = .ok t →
    (t.nodes.length : Int) - t.ops.length = ns.length - ops.length + 1 ∧ (ns = [] ↔ t.nodes = []) ∧
      (ns ≠ [] → parens t.ops + 1 = parens ops) ∧ (∀ o ∈ t.ops, o ∈ ops) := by
  induction ops with
  | nil => intro ns t h; unfold closeParen at h; cases h
  | cons o os ih =>
    intro ns t h
    unfold closeParen at h
    split at h
    · rename_i hc
      obtain ⟨s, hs, h⟩ := Res.bind_eq_ok.1 h
      obtain ⟨a1, a2, a3, o', a4⟩ := handle_count hs
      simp only at a1 a3 a4
      injection a4 with b1 b2
      obtain ⟨g1, g2, g3, g4⟩ := ih s.nodes t h
      refine ⟨?_, ?_, ?_, fun x hx => by simp [g4 x hx]⟩
      · rw [g1]; rw [← b2] at a3; omega
      · constructor
        · intro e; exact absurd e a1
        · intro e; exact absurd (g2.2 e) a2
      · intro _
        rw [g3 a2]; unfold parens; rw [List.count_cons_of_ne hc.2]
    · rename_i hc
      injection h with h; subst h
      refine ⟨by simp only [List.length_cons]; push_cast; ring, Iff.rfl, ?_, fun x hx => by simp [hx]⟩
      intro hn
      have ho : o = '(' := by
        by_contra ho
        exact hc ⟨hn, ho⟩
      subst ho
      unfold parens
      simp

theorem finish_count (ops : List Char) : ∀ (ns : List Expr) (e : Expr), finish ns ops = .ok e →
    ns.length = ops.length + 1 := by
  induction ops with
  | nil =>
    intro ns e h
    unfold finish at h
    split at h
    · rfl
    · cases h
    · simp_all
  | cons o os ih =>
    intro ns e h
    rw [finish_cons] at h
    obtain ⟨s, hs, h⟩ := Res.bind_eq_ok.1 h
    obtain ⟨a1, a2, a3, o', a4⟩ := handle_count hs
    simp only at a1 a3 a4
    injection a4 with b1 b2
    have := ih s.nodes e h
    rw [← b2] at a3
    simp only [List.length_cons] at a3 ⊢
    omega

/-- an accepted sequence without a gap alternates and is balanced. `a`: an operand has just ended. -/
theorem accepted_alt (ts : List Tok) : ∀ (s : St) (a : Bool) (e : Expr), (∀ t ∈ ts, t.Valid) → (∀ o ∈ s.ops, Known o) →
    NoGap ts → (a = true → ∀ t ∈ ts.head?, t.startsOperand = false) →
    (run ts s >>= fun s => finish s.nodes s.ops) = .ok e →
    0 ≤ (s.ops.length : Int) - parens s.ops - s.nodes.length + (if a then 1 else 0) →
    (s.ops.length : Int) - parens s.ops - s.nodes.length + (if a then 1 else 0) = 0 ∧ Alt a (parens s.ops) ts := by
  induction ts with
  | nil =>
    intro s a e _ _ _ _ h hσ
    have := finish_count s.ops s.nodes e h
    have hp := parens_le s.ops
    cases a with
    | false => simp only [Bool.false_eq_true, if_false] at hσ; omega
    | true =>
      simp only [if_true] at hσ ⊢
      have h0 : parens s.ops = 0 := by omega
      rw [h0]
      exact ⟨by omega, .nil⟩
  | cons t ts ih =>
    intro s a e hv hk hg ha h hσ
    obtain ⟨s', hr, h⟩ := Res.bind_eq_ok.1 h
    unfold run at hr
    obtain ⟨s1, h1, hr⟩ := Res.bind_eq_ok.1 hr
    have hnext : (run ts s1 >>= fun s => finish s.nodes s.ops) = .ok e := by rw [hr]; exact h
    have hv' : ∀ t ∈ ts, t.Valid := fun t ht => hv t (by simp [ht])
    have hg' : NoGap ts := by cases ts with
      | nil => trivial
      | cons u us => exact hg.2
    have hgt : t.endsOperand = true → ∀ u ∈ ts.head?, u.startsOperand = false := by
      intro he u hu
      cases ts with
      | nil => simp at hu
      | cons w us =>
        simp only [List.head?_cons, Option.mem_some_iff] at hu
        subst hu
        exact hg.1 he
    have hsa : a = true → t.startsOperand = false := fun h => ha h t (by simp)
    have hp := parens_le s.ops
    cases t with
    | begin => unfold step at h1; cases h1
    | fin => unfold step at h1; cases h1
    | radical q => unfold step at h1; cases h1
    | op c =>
      have hc : c = '+' ∨ c = '-' ∨ c = '*' ∨ c = '/' ∨ c = '^' := hv (.op c) (by simp)
      unfold step at h1
      obtain ⟨s2, h2, h1⟩ := Res.bind_eq_ok.1 h1
      injection h1 with h1; subst h1
      obtain ⟨g1, g2, g3, g4⟩ := popWhile_count hc s.ops s.nodes s2 hk h2
      have hcp : parens (c :: s2.ops) = parens s.ops := by
        rw [← g2]; unfold parens
        rw [List.count_cons_of_ne (by rcases hc with rfl | rfl | rfl | rfl | rfl <;> decide)]
      have key := ih ⟨s2.nodes, c :: s2.ops⟩ false e hv' (by
          intro o ho
          rcases List.mem_cons.1 ho with rfl | ho
          · exact (prio_pos hc).1
          · exact g4 o ho) hg' (by simp) hnext
      simp only [hcp, List.length_cons, Bool.false_eq_true, if_false] at key
      push_cast at key
      cases a with
      | true =>
        simp only [if_true] at hσ ⊢
        obtain ⟨k1, k2⟩ := key (by omega)
        exact ⟨by omega, .op hc k2⟩
      | false =>
        simp only [Bool.false_eq_true, if_false] at hσ ⊢
        obtain ⟨k1, k2⟩ := key (by omega)
        omega
    | lparen =>
      cases a with
      | true => exact absurd (hsa rfl) (by simp [Tok.startsOperand])
      | false =>
        unfold step at h1
        injection h1 with h1; subst h1
        have hcp : parens ('(' :: s.ops) = parens s.ops + 1 := by unfold parens; simp
        have key := ih ⟨s.nodes, '(' :: s.ops⟩ false e hv' (by
          intro o ho
          rcases List.mem_cons.1 ho with rfl | ho
          · simp [Known]
          · exact hk o ho) hg' (by simp) hnext
        simp only [hcp, List.length_cons, Bool.false_eq_true, if_false] at key hσ ⊢
        push_cast at key
        obtain ⟨k1, k2⟩ := key (by omega)
        exact ⟨by omega, .openp k2⟩
    | rparen =>
      unfold step at h1
      obtain ⟨g1, g2, g3, g4⟩ := closeParen_count s.ops s.nodes s1 h1
      have key := ih s1 true e hv' (fun o ho => hk o (g4 o ho)) hg' (fun _ => hgt rfl) hnext
      simp only [if_true] at key
      have hp1 := parens_le s1.ops
      by_cases hn : s.nodes = []
      · have hn1 := g2.1 hn
        rw [hn, List.length_nil] at g1
        rw [hn1, List.length_nil] at key g1
        have := (key (by push_cast; omega)).1
        push_cast at this
        omega
      · have g3 := g3 hn
        cases a with
        | true =>
          simp only [if_true] at hσ ⊢
          obtain ⟨k1, k2⟩ := key (by omega)
          rw [← g3]
          exact ⟨by push_cast; omega, .close k2⟩
        | false =>
          simp only [Bool.false_eq_true, if_false] at hσ ⊢
          obtain ⟨k1, k2⟩ := key (by omega)
          omega
    | digit q =>
      cases a with
      | true => exact absurd (hsa rfl) (by simp [Tok.startsOperand])
      | false =>
        unfold step at h1
        injection h1 with h1; subst h1
        have key := ih ⟨.leaf (.num q) :: s.nodes, s.ops⟩ true e hv' hk hg' (fun _ => hgt rfl) hnext
        simp only [List.length_cons, Bool.false_eq_true, if_false, if_true] at key hσ ⊢
        push_cast at key
        obtain ⟨k1, k2⟩ := key (by omega)
        exact ⟨by omega, .digit k2⟩
    | symbol q =>
      cases a with
      | true => exact absurd (hsa rfl) (by simp [Tok.startsOperand])
      | false =>
        unfold step at h1
        injection h1 with h1; subst h1
        have key := ih ⟨.leaf (.sym q) :: s.nodes, s.ops⟩ true e hv' hk hg' (fun _ => hgt rfl) hnext
        simp only [List.length_cons, Bool.false_eq_true, if_false, if_true] at key hσ ⊢
        push_cast at key
        obtain ⟨k1, k2⟩ := key (by omega)
        exact ⟨by omega, .symbol k2⟩

/-- without a gap, exactly the sequences of the grammar are accepted, with their tree. -/
theorem parseToks_iff (ts : List Tok) (hv : ∀ t ∈ ts, t.Valid) (hg : NoGap ts) (e : Expr) :
    parseToks ts = .ok e ↔ Derives 1 ts e := by
  constructor
  · intro h
    obtain ⟨-, ha⟩ := accepted_alt ts ⟨[], []⟩ false e hv (by simp) hg (by simp) h (by simp [parens])
    obtain ⟨e', he'⟩ := alt_derives ha
    have := parseToks_derives he'
    rw [h] at this
    injection this with this
    rw [this]; exact he'
  · exact parseToks_derives

/-- the grammar is unambiguous. -/
theorem Derives.unique {ts : List Tok} {a b : Expr} (ha : Derives 1 ts a) (hb : Derives 1 ts b) : a = b := by
  have := parseToks_derives ha
  rw [parseToks_derives hb] at this
  injection this with this
  exact this.symm

end Symxx.Parser

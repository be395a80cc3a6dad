import Verif.Parser.Spec
import Mathlib.Tactic.Ring
import Mathlib.Tactic.Linarith
import Mathlib.Tactic.IntervalCases
/-!
# Correctness of the operator precedence loop
-/
namespace Symxx.Parser
open Symxx.Num

/-- priority as a number; unknown characters do not occur. -/
def prio (c : Char) : Nat :=
  if c = '(' then 0 else if c = '+' ∨ c = '-' then 10 else if c = '*' ∨ c = '/' then 100 else 1000

def Known (c : Char) : Prop := c = '(' ∨ c = '+' ∨ c = '-' ∨ c = '*' ∨ c = '/' ∨ c = '^'

theorem priority_eq {c : Char} (h : Known c) : priority c = .ok (prio c) := by
  rcases h with rfl | rfl | rfl | rfl | rfl | rfl <;> rfl

theorem greatOrEqual_eq {a b : Char} (ha : Known a) (hb : Known b) :
    greatOrEqual a b = .ok (decide (prio a ≥ prio b)) := by
  unfold greatOrEqual
  rw [priority_eq ha, priority_eq hb]; rfl

/-- lowest priority of an operator of level `l` or above. -/
def lvPrio (l : Nat) : Nat := if l ≤ 1 then 10 else if l = 2 then 100 else if l = 3 then 1000 else 10000

theorem OpAt.prio {l c} (h : OpAt l c) : prio c = lvPrio l ∧ Known c := by
  cases h <;> exact ⟨by decide, by unfold Known; decide⟩

/-- reduce with all the operators of `A`. -/
def reduce : List Expr → List Char → Option (List Expr)
  | ns, [] => some ns
  | r :: l :: ns, o :: os => reduce (.node o l r :: ns) os
  | _, _ :: _ => none

theorem reduce_append (ns : List Expr) (A B : List Char) :
    reduce ns (A ++ B) = (reduce ns A).bind fun m => reduce m B := by
  induction A generalizing ns with
  | nil => cases ns <;> rfl
  | cons o A ih =>
    match ns with
    | [] => rfl
    | [_] => rfl
    | r :: l :: ns => exact ih _

theorem popWhile_reduce {c : Char} (hc : Known c) (A O : List Char) (ns ns' : List Expr)
    (hA : ∀ a ∈ A, Known a ∧ prio c ≤ prio a) (h : reduce ns A = some ns') :
    popWhile c ns (A ++ O) = popWhile c ns' O := by
  induction A generalizing ns with
  | nil =>
    cases ns <;> (simp only [reduce, Option.some.injEq] at h; subst h; rfl)
  | cons o A ih =>
    obtain ⟨ho, hp⟩ := hA o (by simp)
    match ns, h with
    | r :: l :: ns, h =>
      rw [List.cons_append, popWhile, greatOrEqual_eq ho hc]
      simp only [Res.bind_ok, ge_iff_le, hp, decide_true, if_true, handle]
      exact ih _ (fun a ha => hA a (List.mem_cons_of_mem _ ha)) h

theorem popWhile_stop {c : Char} (hc : Known c) (O : List Char) (ns : List Expr)
    (hO : ∀ o ∈ O.head?, Known o ∧ prio o < prio c) : popWhile c ns O = .ok ⟨ns, O⟩ := by
  cases O with
  | nil => rfl
  | cons o O =>
    obtain ⟨ho, hp⟩ := hO o (by simp)
    rw [popWhile, greatOrEqual_eq ho hc]
    simp [Nat.not_le.2 hp]

theorem reduce_ne_nil {A : List Char} {ns : List Expr} {e : Expr} {N : List Expr} (h : reduce ns A = some (e :: N)) :
    ns ≠ [] := by
  rintro rfl
  cases A <;> simp [reduce] at h

theorem closeParen_reduce (A O : List Char) (ns : List Expr) (e : Expr) (N : List Expr)
    (hA : ∀ a ∈ A, a ≠ '(') (h : reduce ns A = some (e :: N)) :
    closeParen ns (A ++ '(' :: O) = .ok ⟨e :: N, O⟩ := by
  induction A generalizing ns with
  | nil =>
    have : ns = e :: N := by cases ns <;> simpa [reduce] using h
    subst this
    simp [closeParen]
  | cons o A ih =>
    match ns, h with
    | r :: l :: ns, h =>
      rw [List.cons_append, closeParen, if_pos ⟨by simp, hA o (by simp)⟩]
      simp only [handle, Res.bind_ok]
      exact ih _ (fun a ha => hA a (List.mem_cons_of_mem _ ha)) h

theorem finish_reduce (A : List Char) (ns : List Expr) (e : Expr) (h : reduce ns A = some [e]) :
    finish ns A = .ok e := by
  induction A generalizing ns with
  | nil =>
    have : ns = [e] := by cases ns <;> simpa [reduce] using h
    subst this
    rfl
  | cons o A ih =>
    match ns, h with
    | r :: l :: ns, h =>
      unfold finish
      simp only [handle, Res.bind_ok]
      exact ih _ h

/-- processing an expression of level `l` on top of operators that bind less tightly. -/
theorem run_derives {l : Nat} {ts : List Tok} {e : Expr} (h : Derives l ts e) (N : List Expr) (O : List Char)
    (hO : ∀ o ∈ O.head?, Known o ∧ prio o < lvPrio l) :
    ∃ A ns, (∀ rest, run (ts ++ rest) ⟨N, O⟩ = run rest ⟨ns, A ++ O⟩) ∧
      (∀ a ∈ A, Known a ∧ lvPrio l ≤ prio a) ∧ reduce ns A = some (e :: N) := by
  induction h generalizing N O with
  | num q => exact ⟨[], .leaf (.num q) :: N, fun rest => rfl, by simp, rfl⟩
  | sym x => exact ⟨[], .leaf (.sym x) :: N, fun rest => rfl, by simp, rfl⟩
  | @paren ts e _ ih =>
    obtain ⟨A, ns, h1, h2, h3⟩ := ih N ('(' :: O) (by
      intro o ho
      simp only [List.head?_cons, Option.mem_def, Option.some.injEq] at ho
      subst ho
      exact ⟨Or.inl rfl, by decide⟩)
    refine ⟨[], e :: N, fun rest => ?_, by simp, rfl⟩
    have := h1 (.rparen :: rest)
    rw [List.cons_append, run]
    simp only [step, Res.bind_ok]
    rw [List.append_assoc, List.singleton_append, this, run]
    simp only [step]
    rw [closeParen_reduce A O ns e N (fun a ha => ?_) h3]
    · rfl
    · rintro rfl
      have := (h2 _ ha).2
      revert this; decide
  | @up l ts e hl _ ih =>
    have hle : lvPrio l ≤ lvPrio (l + 1) := by
      unfold lvPrio; split_ifs <;> omega
    obtain ⟨A, ns, h1, h2, h3⟩ := ih N O fun o ho => ⟨(hO o ho).1, lt_of_lt_of_le (hO o ho).2 hle⟩
    exact ⟨A, ns, h1, fun a ha => ⟨(h2 a ha).1, le_trans hle (h2 a ha).2⟩, h3⟩
  | @bin l c ts us a b hc _ _ iha ihb =>
    obtain ⟨hcp, hck⟩ := hc.prio
    obtain ⟨A1, n1, h1, h2, h3⟩ := iha N O hO
    have hlt : lvPrio l < lvPrio (l + 1) := by
      cases hc <;> decide +revert
    obtain ⟨A2, n2, g1, g2, g3⟩ := ihb (a :: N) (c :: O) (by
      intro o ho
      simp only [List.head?_cons, Option.mem_def, Option.some.injEq] at ho
      subst ho
      exact ⟨hck, by rw [hcp]; exact hlt⟩)
    refine ⟨A2 ++ [c], n2, fun rest => ?_, ?_, ?_⟩
    · rw [List.append_assoc, h1, List.cons_append, run]
      simp only [step]
      rw [popWhile_reduce hck A1 O n1 (a :: N) (fun x hx => ⟨(h2 x hx).1, by rw [hcp]; exact (h2 x hx).2⟩) h3,
        popWhile_stop hck O (a :: N) (fun o ho => ⟨(hO o ho).1, by rw [hcp]; exact (hO o ho).2⟩)]
      simp only [Res.bind_ok]
      rw [g1, List.append_assoc]
      rfl
    · intro x hx
      rcases List.mem_append.1 hx with hx | hx
      · exact ⟨(g2 x hx).1, le_trans hlt.le (g2 x hx).2⟩
      · rw [List.mem_singleton] at hx
        subst hx
        exact ⟨hck, hcp.ge⟩
    · rw [reduce_append, g3]
      rfl

/-- the parser returns the tree of every expression of the grammar. -/
theorem parseToks_derives {ts : List Tok} {e : Expr} (h : Derives 1 ts e) : parseToks ts = .ok e := by
  obtain ⟨A, ns, h1, -, h3⟩ := run_derives h [] [] (by simp)
  have := h1 []
  rw [List.append_nil, List.append_nil, run] at this
  unfold parseToks
  rw [this]
  exact finish_reduce A ns e h3

theorem Derives.lift {l : Nat} {ts e} (h : Derives 4 ts e) (h1 : 1 ≤ l) (h4 : l ≤ 4) : Derives l ts e := by
  have h3 : Derives 3 ts e := .up (by omega) h
  have h2 : Derives 2 ts e := .up (by omega) h3
  have h1' : Derives 1 ts e := .up (by omega) h2
  interval_cases l <;> assumption

theorem Derives.down {l m : Nat} {ts e} (h : Derives m ts e) (h1 : 1 ≤ l) (hm : l ≤ m) : Derives l ts e := by
  induction m with
  | zero => omega
  | succ m ih =>
    rcases Nat.lt_or_ge m l with h2 | h2
    · have : l = m + 1 := by omega
      subst this; exact h
    · exact ih (.up (by omega) h) h2

theorem opAt_level {c : Char} (h : c = '+' ∨ c = '-' ∨ c = '*' ∨ c = '/' ∨ c = '^') : OpAt (opLevel c) c := by
  rcases h with rfl | rfl | rfl | rfl | rfl
  · exact .plus
  · exact .minus
  · exact .times
  · exact .divide
  · exact .power

theorem OpAt.range {l c} (h : OpAt l c) : 1 ≤ l ∧ l ≤ 3 := by cases h <;> omega

/-- the conventional rendering is an expression of the grammar with that tree. -/
theorem derives_render (e : Expr) (he : e.WF) (l : Nat) (h1 : 1 ≤ l) (h4 : l ≤ 4) : Derives l (render l e) e := by
  induction e generalizing l with
  | leaf x =>
    have : Derives 4 [x.tok] (.leaf x) := by
      cases x with
      | num q => exact .num q
      | sym s => exact .sym s
    exact this.lift h1 h4
  | node c a b iha ihb =>
    obtain ⟨hc, ha, hb⟩ := he
    have hop := opAt_level hc
    obtain ⟨r1, r2⟩ := hop.range
    have hbody : Derives (opLevel c) (render (opLevel c) a ++ .op c :: render (opLevel c + 1) b) (.node c a b) :=
      .bin hop (iha ha _ r1 (by omega)) (ihb hb _ (by omega) (by omega))
    unfold render
    simp only
    split
    · exact (Derives.paren (hbody.down (by omega) r1)).lift h1 h4
    · rename_i hge
      exact hbody.down h1 (by omega)

theorem derives_renderFull (e : Expr) (he : e.WF) : Derives 4 (renderFull e) e := by
  induction e with
  | leaf x =>
    cases x with
    | num q => exact .num q
    | sym s => exact .sym s
  | node c a b iha ihb =>
    obtain ⟨hc, ha, hb⟩ := he
    have hop := opAt_level hc
    obtain ⟨r1, r2⟩ := hop.range
    have hbody : Derives (opLevel c) (renderFull a ++ .op c :: renderFull b) (.node c a b) :=
      .bin hop ((iha ha).lift r1 (by omega)) ((ihb hb).lift (by omega) (by omega))
    unfold renderFull
    exact .paren (hbody.down (by omega) r1)

/-! ### outcomes on arbitrary tokens -/

/-- the operator characters a token can carry. -/
def Tok.Valid : Tok → Prop
  | .op c => c = '+' ∨ c = '-' ∨ c = '*' ∨ c = '/' ∨ c = '^'
  | _ => True

/-- returns or raises an `Error`. -/
def _root_.Symxx.Res.Fine {α} (x : Res α) : Prop := (∃ a, x = .ok a) ∨ ∃ m, x = .throw m

theorem Fine.bind {α β} {x : Res α} {f : α → Res β} (hx : x.Fine) (hf : ∀ a, x = .ok a → (f a).Fine) :
    (x >>= f).Fine := by
  rcases hx with ⟨a, rfl⟩ | ⟨m, rfl⟩
  · exact hf a rfl
  · exact Or.inr ⟨m, rfl⟩

theorem handle_fine (s : St) : (handle s).Fine := by
  unfold handle
  split
  · exact Or.inl ⟨_, rfl⟩
  · exact Or.inr ⟨_, rfl⟩

theorem handle_eq {s t : St} (h : handle s = .ok t) :
    ∃ r l ns o os, s = ⟨r :: l :: ns, o :: os⟩ ∧ t = ⟨.node o l r :: ns, os⟩ := by
  unfold handle at h
  split at h
  · rename_i r l ns o os e1 e2
    cases s
    simp only at e1 e2
    subst e1; subst e2
    injection h with h
    exact ⟨r, l, ns, o, os, rfl, h.symm⟩
  · cases h

theorem popWhile_fine {c : Char} (hc : Known c) (ops : List Char) (ns : List Expr) (h : ∀ o ∈ ops, Known o) :
    (popWhile c ns ops).Fine ∧ ∀ s, popWhile c ns ops = .ok s → ∀ o ∈ s.ops, Known o := by
  induction ops generalizing ns with
  | nil => exact ⟨Or.inl ⟨_, rfl⟩, fun s hs => by injection hs with hs; subst hs; simp⟩
  | cons o os ih =>
    have ho := h o (by simp)
    rw [popWhile, greatOrEqual_eq ho hc]
    simp only [Res.bind_ok]
    by_cases hp : prio o ≥ prio c
    · simp only [hp, decide_true, if_true]
      constructor
      · refine Fine.bind (handle_fine _) fun s _ => ?_
        exact (ih s.nodes fun x hx => h x (List.mem_cons_of_mem _ hx)).1
      · intro s hs
        obtain ⟨s', _, hs⟩ := Res.bind_eq_ok.1 hs
        exact (ih s'.nodes fun x hx => h x (List.mem_cons_of_mem _ hx)).2 s hs
    · simp only [hp, decide_false, Bool.false_eq_true, if_false]
      exact ⟨Or.inl ⟨_, rfl⟩, fun s hs => by injection hs with hs; subst hs; exact h⟩

theorem closeParen_fine (ops : List Char) (ns : List Expr) (h : ∀ o ∈ ops, Known o) :
    (closeParen ns ops).Fine ∧ ∀ s, closeParen ns ops = .ok s → ∀ o ∈ s.ops, Known o := by
  induction ops generalizing ns with
  | nil => exact ⟨Or.inr ⟨_, rfl⟩, fun s hs => by simp [closeParen] at hs⟩
  | cons o os ih =>
    have h' : ∀ x ∈ os, Known x := fun x hx => h x (List.mem_cons_of_mem _ hx)
    rw [closeParen]
    split
    · constructor
      · exact Fine.bind (handle_fine _) fun s _ => (ih s.nodes h').1
      · intro s hs
        obtain ⟨s', _, hs⟩ := Res.bind_eq_ok.1 hs
        exact (ih s'.nodes h').2 s hs
    · exact ⟨Or.inl ⟨_, rfl⟩, fun s hs => by injection hs with hs; subst hs; exact h'⟩

theorem step_fine (t : Tok) (ht : t.Valid) (s : St) (h : ∀ o ∈ s.ops, Known o) :
    (step s t).Fine ∧ ∀ s', step s t = .ok s' → ∀ o ∈ s'.ops, Known o := by
  cases t with
  | op c =>
    have hc : Known c := Or.inr ht
    obtain ⟨f1, f2⟩ := popWhile_fine hc s.ops s.nodes h
    refine ⟨Fine.bind f1 fun _ _ => Or.inl ⟨_, rfl⟩, fun s' hs => ?_⟩
    obtain ⟨x, hx, hs⟩ := Res.bind_eq_ok.1 hs
    injection hs with hs
    subst hs
    intro o ho
    rcases List.mem_cons.1 ho with rfl | ho
    · exact hc
    · exact f2 x hx o ho
  | lparen =>
    refine ⟨Or.inl ⟨_, rfl⟩, fun s' hs => ?_⟩
    injection hs with hs
    subst hs
    intro o ho
    rcases List.mem_cons.1 ho with rfl | ho
    · exact Or.inl rfl
    · exact h o ho
  | rparen => exact closeParen_fine s.ops s.nodes h
  | digit q => exact ⟨Or.inl ⟨_, rfl⟩, fun s' hs => by injection hs with hs; subst hs; exact h⟩
  | symbol x => exact ⟨Or.inl ⟨_, rfl⟩, fun s' hs => by injection hs with hs; subst hs; exact h⟩
  | begin => exact ⟨Or.inr ⟨_, rfl⟩, fun s' hs => by cases hs⟩
  | fin => exact ⟨Or.inr ⟨_, rfl⟩, fun s' hs => by cases hs⟩
  | radical p => exact ⟨Or.inr ⟨_, rfl⟩, fun s' hs => by cases hs⟩

theorem run_fine (ts : List Tok) (ht : ∀ t ∈ ts, t.Valid) (s : St) (h : ∀ o ∈ s.ops, Known o) : (run ts s).Fine := by
  induction ts generalizing s with
  | nil => exact Or.inl ⟨_, rfl⟩
  | cons t ts ih =>
    obtain ⟨f1, f2⟩ := step_fine t (ht t (by simp)) s h
    exact Fine.bind f1 fun s' hs => ih (fun t h => ht t (List.mem_cons_of_mem _ h)) s' (f2 s' hs)

theorem finish_cons (ns : List Expr) (o : Char) (os : List Char) :
    finish ns (o :: os) = (do let s ← handle ⟨ns, o :: os⟩; finish s.nodes os) := by
  match ns with
  | [] => rfl
  | [_] => rfl
  | _ :: _ :: _ => rfl

theorem finish_fine (ops : List Char) (ns : List Expr) : (finish ns ops).Fine := by
  induction ops generalizing ns with
  | nil =>
    match ns with
    | [] => exact Or.inr ⟨_, rfl⟩
    | [e] => exact Or.inl ⟨_, rfl⟩
    | _ :: _ :: _ => exact Or.inr ⟨_, rfl⟩
  | cons o os ih =>
    rw [finish_cons]
    exact Fine.bind (handle_fine _) fun s _ => ih s.nodes

theorem parseToks_fine (ts : List Tok) (ht : ∀ t ∈ ts, t.Valid) : (parseToks ts).Fine :=
  Fine.bind (run_fine ts ht _ (by simp)) fun s _ => finish_fine s.ops s.nodes

/-! ### operands -/

/-- the leaves of a tree from left to right. -/
def Expr.leaves : Expr → List Leaf
  | .leaf l => [l]
  | .node _ a b => a.leaves ++ b.leaves

/-- the operands among the tokens. -/
def operands : List Tok → List Leaf
  | [] => []
  | .digit q :: ts => .num q :: operands ts
  | .symbol x :: ts => .sym x :: operands ts
  | _ :: ts => operands ts

def stackLeaves : List Expr → List Leaf
  | [] => []
  | e :: ns => stackLeaves ns ++ e.leaves

theorem handle_leaves {s t : St} (h : handle s = .ok t) : stackLeaves t.nodes = stackLeaves s.nodes := by
  obtain ⟨r, l, ns, o, os, rfl, rfl⟩ := handle_eq h
  simp [stackLeaves, Expr.leaves]

theorem popWhile_leaves {c : Char} (ops : List Char) (ns : List Expr) (s : St) (h : popWhile c ns ops = .ok s) :
    stackLeaves s.nodes = stackLeaves ns := by
  induction ops generalizing ns with
  | nil => rw [popWhile] at h; injection h with h; subst h; rfl
  | cons o os ih =>
    rw [popWhile] at h
    obtain ⟨b, -, h⟩ := Res.bind_eq_ok.1 h
    cases b with
    | true =>
      simp only [if_true] at h
      obtain ⟨s', h1, h⟩ := Res.bind_eq_ok.1 h
      rw [ih s'.nodes h]
      exact handle_leaves h1
    | false =>
      simp only [Bool.false_eq_true, if_false] at h
      injection h with h; subst h; rfl

theorem closeParen_leaves (ops : List Char) (ns : List Expr) (s : St) (h : closeParen ns ops = .ok s) :
    stackLeaves s.nodes = stackLeaves ns := by
  induction ops generalizing ns with
  | nil => cases h
  | cons o os ih =>
    rw [closeParen] at h
    split at h
    · obtain ⟨s', h1, h⟩ := Res.bind_eq_ok.1 h
      rw [ih s'.nodes h]
      exact handle_leaves h1
    · injection h with h; subst h; rfl

theorem operands_append (a b : List Tok) : operands (a ++ b) = operands a ++ operands b := by
  induction a with
  | nil => rfl
  | cons t a ih => cases t <;> simp [operands, ih]

theorem step_leaves (s s' : St) (t : Tok) (h : step s t = .ok s') :
    stackLeaves s'.nodes = stackLeaves s.nodes ++ operands [t] := by
  cases t with
  | op c =>
    obtain ⟨x, hx, h⟩ := Res.bind_eq_ok.1 h
    injection h with h
    subst h
    simp only [operands, List.append_nil]
    exact popWhile_leaves s.ops s.nodes x hx
  | lparen => injection h with h; subst h; simp [operands]
  | rparen => simp only [operands, List.append_nil]; exact closeParen_leaves s.ops s.nodes s' h
  | digit q => injection h with h; subst h; rfl
  | symbol x => injection h with h; subst h; rfl
  | begin => cases h
  | fin => cases h
  | radical p => cases h

theorem run_leaves (ts : List Tok) (s s' : St) (h : run ts s = .ok s') :
    stackLeaves s'.nodes = stackLeaves s.nodes ++ operands ts := by
  induction ts generalizing s with
  | nil => injection h with h; subst h; simp [operands]
  | cons t ts ih =>
    obtain ⟨x, hx, h⟩ := Res.bind_eq_ok.1 h
    rw [ih x h, step_leaves s x t hx, List.append_assoc, ← operands_append]
    rfl

theorem finish_leaves (ops : List Char) (ns : List Expr) (e : Expr) (h : finish ns ops = .ok e) :
    stackLeaves ns = e.leaves := by
  induction ops generalizing ns with
  | nil =>
    match ns, h with
    | [x], h => injection h with h; subst h; simp [stackLeaves]
    | [], h => cases h
    | _ :: _ :: _, h => cases h
  | cons o os ih =>
    rw [finish_cons] at h
    obtain ⟨s, h1, h⟩ := Res.bind_eq_ok.1 h
    rw [← ih s.nodes h]
    exact (handle_leaves h1).symm

theorem parseToks_leaves (ts : List Tok) (e : Expr) (h : parseToks ts = .ok e) : e.leaves = operands ts := by
  obtain ⟨s, h1, h2⟩ := Res.bind_eq_ok.1 h
  rw [← finish_leaves _ _ _ h2, run_leaves ts _ s h1]
  rfl

end Symxx.Parser

import Verif.Cli.Basic
/-!
# What the two defining commands do
-/
namespace Symxx.Cli
open Symxx.Num Symxx.Sym Cmd

variable {E : CEnv}

/-! ### names separated by commas -/

theorem inter_nil : [','].intercalate ([] : List (List Char)) = [] := rfl
theorem inter_one (p : List Char) : [','].intercalate [p] = p := by simp [List.intercalate]
theorem inter_cons (p q : List Char) (r : List (List Char)) :
    [','].intercalate (p :: q :: r) = p ++ ',' :: [','].intercalate (q :: r) := by
  simp [List.intercalate]

theorem prefix_comma {a b x y : List Char} (ha : ',' ∉ a) (hb : ',' ∉ b) (h : a ++ ',' :: x = b ++ ',' :: y) :
    a = b ∧ x = y := by
  induction a generalizing b with
  | nil =>
    cases b with
    | nil => simpa using h
    | cons c b => simp only [List.nil_append, List.cons_append, List.cons.injEq] at h; simp [← h.1] at hb
  | cons d a ih =>
    cases b with
    | nil => simp only [List.nil_append, List.cons_append, List.cons.injEq] at h; simp [h.1] at ha
    | cons c b =>
      simp only [List.cons_append, List.cons.injEq] at h
      obtain ⟨h1, h2⟩ := ih (fun hm => ha (List.mem_cons_of_mem _ hm)) (fun hm => hb (List.mem_cons_of_mem _ hm)) h.2
      exact ⟨by rw [h.1, h1], h2⟩

/-- `Names` for a text of which `temp` has already been read. -/
def NamesFrom (temp s : List Char) (ps : List (List Char)) : Prop :=
  (∀ p ∈ ps, p ≠ [] ∧ ∀ c ∈ p, c ≠ ',' ∧ isSpace c = false) ∧
    (temp ++ s.filter (fun c => !isSpace c) = [','].intercalate ps ∨
      ps ≠ [] ∧ temp ++ s.filter (fun c => !isSpace c) = [','].intercalate ps ++ [','])

theorem namesFrom_nil {temp : List Char} {ps : List (List Char)} (ht : ∀ c ∈ temp, c ≠ ',' ∧ isSpace c = false) :
    NamesFrom temp [] ps ↔ ps = if temp.isEmpty then [] else [temp] := by
  have hc : ',' ∉ temp := fun h => (ht _ h).1 rfl
  unfold NamesFrom
  simp only [List.filter_nil, List.append_nil]
  constructor
  · rintro ⟨hp, h | ⟨hn, h⟩⟩
    · match ps with
      | [] => rw [inter_nil] at h; subst h; rfl
      | [p] =>
        rw [inter_one] at h; subst h
        have := (hp temp (by simp)).1
        cases temp with
        | nil => exact absurd rfl this
        | cons => rfl
      | p :: q :: r => rw [inter_cons] at h; subst h; simp at hc
    · subst h; simp at hc
  · rintro rfl
    cases temp with
    | nil => exact ⟨by simp, Or.inl rfl⟩
    | cons c t =>
      refine ⟨?_, Or.inl ?_⟩
      · intro p hp
        simp only [List.isEmpty_cons, Bool.false_eq_true, if_false, List.mem_singleton] at hp
        subst hp
        exact ⟨by simp, ht⟩
      · simp only [List.isEmpty_cons, Bool.false_eq_true, if_false]
        rw [inter_one]

theorem namesFrom_comma {temp s : List Char} {ps : List (List Char)} (ht : ∀ c ∈ temp, c ≠ ',' ∧ isSpace c = false) :
    NamesFrom temp (',' :: s) ps ↔ temp ≠ [] ∧ ∃ r, ps = temp :: r ∧ NamesFrom [] s r := by
  have hc : ',' ∉ temp := fun h => (ht _ h).1 rfl
  have hf : (',' :: s).filter (fun c => !isSpace c) = ',' :: s.filter (fun c => !isSpace c) := by
    rw [List.filter_cons_of_pos (by decide)]
  unfold NamesFrom
  rw [hf]
  generalize s.filter (fun c => !isSpace c) = X
  simp only [List.nil_append]
  constructor
  · rintro ⟨hp, h⟩
    match ps, hp, h with
    | [], _, h =>
      rw [inter_nil] at h
      rcases h with h | ⟨h, -⟩
      · simp at h
      · exact absurd rfl h
    | [p], hp, h =>
      have hpc : ',' ∉ p := fun hm => ((hp p (by simp)).2 _ hm).1 rfl
      rw [inter_one] at h
      rcases h with h | ⟨-, h⟩
      · rw [← h] at hpc; simp at hpc
      · obtain ⟨h1, h2⟩ := prefix_comma hc hpc h
        subst h1; subst h2
        exact ⟨(hp temp (by simp)).1, [], rfl, by simp, Or.inl rfl⟩
    | p :: q :: r, hp, h =>
      have hpc : ',' ∉ p := fun hm => ((hp p (by simp)).2 _ hm).1 rfl
      rw [inter_cons] at h
      rcases h with h | ⟨-, h⟩
      · obtain ⟨h1, h2⟩ := prefix_comma hc hpc h
        subst h1; subst h2
        exact ⟨(hp temp (by simp)).1, q :: r, rfl, fun x hx => hp x (List.mem_cons_of_mem _ hx), Or.inl rfl⟩
      · rw [List.append_assoc, List.cons_append] at h
        obtain ⟨h1, h2⟩ := prefix_comma hc hpc h
        subst h1; subst h2
        exact ⟨(hp temp (by simp)).1, q :: r, rfl, fun x hx => hp x (List.mem_cons_of_mem _ hx), Or.inr ⟨by simp, rfl⟩⟩
  · rintro ⟨hne, r, rfl, hp, h⟩
    refine ⟨?_, ?_⟩
    · intro p hm
      rcases List.mem_cons.1 hm with rfl | hm
      · exact ⟨hne, ht⟩
      · exact hp p hm
    · match r, h with
      | [], h =>
        rcases h with h | ⟨h, -⟩
        · rw [inter_nil] at h; subst h
          right; exact ⟨by simp, by rw [inter_one]⟩
        · exact absurd rfl h
      | q :: r, h =>
        rw [inter_cons]
        rcases h with h | ⟨-, h⟩
        · left; rw [h]
        · right; exact ⟨by simp, by rw [h, List.append_assoc, List.cons_append]⟩

theorem splitParams_from {s temp : List Char} {ps : List (List Char)} (ht : ∀ c ∈ temp, c ≠ ',' ∧ isSpace c = false) :
    splitParams s temp = .ok ps ↔ NamesFrom temp s ps := by
  induction s generalizing temp ps with
  | nil =>
    rw [namesFrom_nil ht, splitParams, Res.ok.injEq]
    exact eq_comm
  | cons c s ih =>
    unfold splitParams
    by_cases hs : isSpace c = true
    · rw [if_pos hs, ih ht]
      unfold NamesFrom
      rw [List.filter_cons_of_neg (by simp [hs])]
    · rw [if_neg hs]
      by_cases hc : c = ','
      · subst hc
        rw [if_pos rfl, namesFrom_comma ht]
        cases temp with
        | nil => simp [Res.assert]
        | cons d t =>
          simp only [List.isEmpty_cons, Bool.not_false, Res.assert_true, Res.bind_ok, ne_eq, reduceCtorEq,
            not_false_eq_true, true_and]
          rw [Res.bind_eq_ok]
          constructor
          · rintro ⟨r, h1, h2⟩
            injection h2 with h2
            exact ⟨r, h2.symm, (ih (temp := []) (by simp)).1 h1⟩
          · rintro ⟨r, rfl, h⟩
            exact ⟨r, (ih (temp := []) (by simp)).2 h, rfl⟩
      · rw [if_neg hc, ih]
        · unfold NamesFrom
          rw [List.filter_cons_of_pos (by simp [hs])]
          simp only [List.append_assoc, List.singleton_append]
        · intro d hd
          rcases List.mem_append.1 hd with hd | hd
          · exact ht d hd
          · rw [List.mem_singleton] at hd; subst hd
            exact ⟨hc, by simpa using hs⟩

theorem splitParams_iff {s : List Char} {ps : List (List Char)} : splitParams s [] = .ok ps ↔ Names s ps := by
  rw [splitParams_from (by simp)]
  unfold NamesFrom Names
  simp only [List.nil_append]

/-! ### splitting at the first occurrence of a character -/

theorem split_at {c : Char} {a b : List Char} (h : c ∉ a) :
    (a ++ c :: b).takeWhile (· ≠ c) = a ∧ (a ++ c :: b).dropWhile (· ≠ c) = c :: b := by
  have ha : ∀ x ∈ a, (decide (x ≠ c)) = true := fun x hx => by
    rw [decide_eq_true_eq]; rintro rfl; exact h hx
  exact ⟨by rw [List.takeWhile_append_of_pos ha]; simp, by rw [List.dropWhile_append_of_pos ha]; simp⟩

theorem of_mem_takeWhile {p : Char → Bool} {s : List Char} {x : Char} (h : x ∈ s.takeWhile p) : p x = true :=
  List.all_eq_true.1 (List.all_takeWhile (p := p) (l := s)) x h

theorem split_of {c d : Char} {s t : List Char} (h : s.dropWhile (· ≠ c) = d :: t) :
    d = c ∧ s = s.takeWhile (· ≠ c) ++ c :: t ∧ c ∉ s.takeWhile (· ≠ c) := by
  have hd : d = c := by
    have := List.head?_dropWhile_not (fun x => decide (x ≠ c)) s
    rw [h] at this
    simpa using this
  subst hd
  refine ⟨rfl, ?_, ?_⟩
  · conv_lhs => rw [← List.takeWhile_append_dropWhile (p := fun x => decide (x ≠ d)) (l := s), h]
  · intro hm
    have := of_mem_takeWhile hm
    simp at this

theorem split_none {c : Char} {s : List Char} (h : s.dropWhile (· ≠ c) = []) : c ∉ s := by
  intro hm
  have e := List.takeWhile_append_dropWhile (p := fun x => decide (x ≠ c)) (l := s)
  rw [h, List.append_nil] at e
  rw [← e] at hm
  have := of_mem_takeWhile hm
  simp at this

/-! ### `func` -/

/-- the pure part of `cmd_func`. -/
def funcDef (E : CEnv) (body : List Char) : Res (List Char × Fn) :=
  match body.dropWhile (· ≠ '(') with
  | [] => .throw "Function needs '(' and ')'."
  | _ :: t =>
    match t.dropWhile (· ≠ ')') with
    | [] => .throw "Function needs '(' and ')'."
    | _ :: u => do
      let args ← splitParams (t.takeWhile (· ≠ ')')) []
      match u.dropWhile isSpace with
      | '=' :: src => do
        let func ← parseNormal E src
        .ok (body.takeWhile (· ≠ '('), ⟨args, func⟩)
      | _ => .throw "Expected '='."

/-- the state after a definition. -/
def St.define (s : St E) (d : List Char × Fn) : St E := { s with funcs := s.funcs.set d.1 d.2 }

theorem lift_bind {α β} (r : Res α) (f : α → Cmd E β) (s : St E) : (lift r >>= f) s =
    match r with
    | .ok a => f a s
    | .throw m => (.throw m, s, [])
    | .exn m => (.exn m, s, [])
    | .ub m => (.ub m, s, [])
    | .fuel => (.fuel, s, []) := by
  rw [bind_def]
  cases r <;> rfl

theorem cmdFunc_eq (body : List Char) (s : St E) : cmdFunc E body s = (do
    let d ← lift (funcDef E body)
    let s ← get
    lift (assignNode (s.funcs.find d.1) d.2.body)
    put (s.define d)
    printFunc E d.1 : Cmd E Unit) s := by
  unfold cmdFunc funcDef
  generalize body.takeWhile (· ≠ '(') = name
  cases body.dropWhile (· ≠ '(') with
  | nil => rfl
  | cons c t =>
    simp only
    generalize t.takeWhile (· ≠ ')') = inside
    cases t.dropWhile (· ≠ ')') with
    | nil => rfl
    | cons d u =>
      simp only
      rw [lift_bind, lift_bind]
      cases splitParams inside [] with
      | ok args =>
        simp only [Res.bind_ok]
        generalize u.dropWhile isSpace = v
        split
        · simp only
          rw [lift_bind]
          cases parseNormal E _ <;> rfl
        · rename_i hv
          split
          · rename_i a src heq
            split at heq
            · exact absurd rfl (hv _)
            · cases heq
          all_goals
            rename_i heq
            split at heq
            · exact absurd rfl (hv _)
            · cases heq
              try rfl
      | _ => rfl

theorem defines_iff {name body : List Char} {fn : Fn} :
    Defines E name ("func ".toList ++ body) fn ↔ funcDef E body = .ok (name, fn) := by
  unfold Defines funcDef
  constructor
  · rintro ⟨inside, blanks, text, n, hl, hn, hi, hb, hp, hparse, hnorm⟩
    simp only [List.append_assoc, List.append_cancel_left_eq] at hl
    have e1 := split_at (b := inside ++ (')' :: (blanks ++ ('=' :: text)))) hn
    have hl' : body = name ++ '(' :: (inside ++ ')' :: (blanks ++ '=' :: text)) := by simpa using hl
    rw [hl', e1.2, e1.1]
    simp only
    have e2 := split_at (b := blanks ++ ('=' :: text)) hi
    rw [e2.2, e2.1]
    simp only
    rw [splitParams_iff.2 hp, Res.bind_ok, List.dropWhile_append_of_pos hb,
      List.dropWhile_cons_of_neg (by decide)]
    simp only
    unfold parseNormal
    rw [hparse, Res.bind_ok, hnorm]
    rfl
  · intro h
    split at h
    · cases h
    · rename_i t h1
      split at h
      · cases h
      · rename_i u h2
        obtain ⟨args, h3, h⟩ := Res.bind_eq_ok.1 h
        split at h
        · rename_i src h4
          obtain ⟨func, h5, h⟩ := Res.bind_eq_ok.1 h
          obtain ⟨n, h6, h7⟩ := Res.bind_eq_ok.1 h5
          injection h with h
          injection h with hname hfn
          subst hfn
          obtain ⟨-, b1, b2⟩ := split_of h1
          obtain ⟨-, b3, b4⟩ := split_of h2
          refine ⟨t.takeWhile (· ≠ ')'), u.takeWhile isSpace, src, n, ?_, ?_, b4, ?_, splitParams_iff.1 h3, h6, h7⟩
          · have : u = u.takeWhile isSpace ++ '=' :: src := by
              conv_lhs => rw [← List.takeWhile_append_dropWhile (p := isSpace) (l := u), h4]
            rw [hname] at b1
            simp only [List.append_assoc, List.append_cancel_left_eq]
            conv_lhs => rw [b1, b3, this]
            simp
          · rw [← hname]; exact b2
          · intro c hc; exact of_mem_takeWhile hc
        · cases h

/-! ### `constant` -/

/-- the pure part of `cmd_constant`. -/
def constDef (E : CEnv) (body : List Char) : Res (List Char × E.LD) :=
  match body.dropWhile (· ≠ '=') with
  | [] => .throw "Expected '='."
  | _ :: t => do
    let temp := (body.takeWhile (· ≠ '=')).filter fun c => !isSpace c
    Res.assert (!temp.isEmpty) "Constant's name can not be empty."
    let v ← E.stold t
    .ok (temp, v)

/-- the state after a definition. -/
def St.defineC (s : St E) (d : List Char × E.LD) : St E := { s with constants := s.constants.set d.1 d.2 }

theorem cmdConstant_eq (body : List Char) (s : St E) : cmdConstant E body s = (do
    let d ← lift (constDef E body)
    let s ← get
    put (s.defineC d)
    printConstant E d.1 : Cmd E Unit) s := by
  unfold cmdConstant constDef
  cases body.dropWhile (· ≠ '=') with
  | nil => rfl
  | cons c t =>
    simp only [lift_bind]
    cases (List.filter (fun c => !isSpace c) (List.takeWhile (fun x => decide (x ≠ '=')) body)).isEmpty with
    | true => rfl
    | false =>
      simp only [Bool.not_false, Res.assert_true, Res.bind_ok]
      cases E.stold _ <;> rfl

theorem definesConst_iff {name body : List Char} {v : E.LD} :
    DefinesConst E name ("constant ".toList ++ body) v ↔ constDef E body = .ok (name, v) := by
  unfold DefinesConst constDef
  constructor
  · rintro ⟨pre, text, hl, he, hname, hne, hv⟩
    have hl' : body = pre ++ '=' :: text := by
      simp only [List.append_assoc, List.append_cancel_left_eq] at hl
      simpa using hl
    have e1 := split_at (b := text) he
    rw [hl', e1.2, e1.1]
    simp only
    rw [← hname, hv]
    cases name with
    | nil => exact absurd rfl hne
    | cons => rfl
  · intro h
    split at h
    · cases h
    · rename_i t h1
      obtain ⟨-, b1, b2⟩ := split_of h1
      simp only at h
      obtain ⟨u, h2, h⟩ := Res.bind_eq_ok.1 h
      obtain ⟨w, h3, h⟩ := Res.bind_eq_ok.1 h
      injection h with h
      injection h with hname hv
      subst hv
      have := Res.assert_eq_ok.1 h2
      refine ⟨body.takeWhile (· ≠ '='), t, ?_, b2, hname.symm, ?_, h3⟩
      · simp only [List.append_assoc, List.append_cancel_left_eq]
        conv_lhs => rw [b1]
        simp
      · rintro rfl
        rw [hname] at this
        simp at this

/-- a line whose first word is `w` starts with `w` and a blank, or is `w`. -/
theorem line_of_word {line w : List Char} (h : word line = w) :
    line = w ∨ line = w ++ ' ' :: (line.dropWhile (· ≠ ' ')).tail := by
  unfold word at h
  cases hd : line.dropWhile (· ≠ ' ') with
  | nil =>
    left
    rw [← h]
    conv_lhs => rw [← List.takeWhile_append_dropWhile (p := fun x => decide (x ≠ ' ')) (l := line), hd, List.append_nil]
  | cons d t =>
    right
    obtain ⟨-, e, -⟩ := split_of hd
    rw [h] at e
    exact e

end Symxx.Cli

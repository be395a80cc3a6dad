import Verif.Cli.Step
/-!
# Sessions: the loop over lines
-/
namespace Symxx.Cli
open Symxx.Num Symxx.Sym Cmd

variable {E : CEnv}

/-! ### lines -/

theorem pieces_ne (s : List Char) : pieces s ≠ [] := by
  cases s with
  | nil => simp [pieces]
  | cons c t =>
    unfold pieces
    split
    · simp
    · split <;> simp

theorem pieces_last {s : List Char} (h : s.dropWhile (· ≠ '\n') = []) : pieces s = [s] := by
  induction s with
  | nil => rfl
  | cons c t ih =>
    by_cases hc : c = '\n'
    · subst hc; simp at h
    · rw [List.dropWhile_cons_of_pos (by simpa using hc)] at h
      unfold pieces
      rw [if_neg hc, ih h]

theorem pieces_cons {s t : List Char} {d : Char} (h : s.dropWhile (· ≠ '\n') = d :: t) :
    pieces s = s.takeWhile (· ≠ '\n') :: pieces t := by
  induction s with
  | nil => cases h
  | cons c s ih =>
    by_cases hc : c = '\n'
    · subst hc
      rw [List.dropWhile_cons_of_neg (by simp)] at h
      injection h with h1 h2
      subst h2
      rw [pieces.eq_2, if_pos rfl, List.takeWhile_cons_of_neg (by simp)]
    · rw [List.dropWhile_cons_of_pos (by simpa using hc)] at h
      rw [List.takeWhile_cons_of_pos (by simpa using hc)]
      rw [pieces.eq_2, if_neg hc, ih h]

/-- the input after `k` lines have been read. -/
def inputAt (input : List Char) : Nat → Input
  | 0 => ⟨input, true, []⟩
  | k + 1 => (inputAt input k).getline

theorem inputAt_good (input : List Char) (k : Nat) (h : k < (pieces input).length) :
    (inputAt input k).good = true ∧ pieces (inputAt input k).rest = (pieces input).drop k := by
  induction k with
  | zero => exact ⟨rfl, rfl⟩
  | succ k ih =>
    obtain ⟨h1, h2⟩ := ih (by omega)
    unfold inputAt Input.getline
    rw [h1]
    simp only [Bool.not_true, Bool.false_eq_true, if_false]
    cases hd : (inputAt input k).rest.dropWhile (· ≠ '\n') with
    | nil =>
      rw [pieces_last hd] at h2
      have := congrArg List.length h2
      simp only [List.length_singleton, List.length_drop] at this
      omega
    | cons d t =>
      rw [pieces_cons hd] at h2
      have := congrArg List.tail h2
      rw [List.tail_cons, List.tail_drop] at this
      exact ⟨rfl, this⟩

theorem inputAt_str (input : List Char) (k : Nat) : (inputAt input (k + 1)).str = lineAt input k := by
  unfold lineAt
  have hne : 0 < (pieces input).length := List.length_pos_iff.2 (pieces_ne input)
  by_cases hk : k < (pieces input).length
  · obtain ⟨h1, h2⟩ := inputAt_good input k hk
    rw [show min k ((pieces input).length - 1) = k by omega]
    have hget : (pieces input)[k]? = (pieces (inputAt input k).rest)[0]? := by rw [h2]; simp
    rw [hget, show inputAt input (k + 1) = (inputAt input k).getline from rfl]
    unfold Input.getline
    rw [h1]
    simp only [Bool.not_true, Bool.false_eq_true, if_false]
    cases hd : (inputAt input k).rest.dropWhile (· ≠ '\n') with
    | nil => rw [pieces_last hd]; rfl
    | cons d t => rw [pieces_cons hd]; rfl
  · rw [show min k ((pieces input).length - 1) = (pieces input).length - 1 by omega]
    have key : ∀ j, (inputAt input ((pieces input).length + j)).good = false ∧
        (inputAt input ((pieces input).length + j)).str = ((pieces input)[(pieces input).length - 1]?).getD [] := by
      intro j
      induction j with
      | zero =>
        obtain ⟨L, hL⟩ : ∃ L, (pieces input).length = L + 1 := ⟨_, (Nat.succ_pred_eq_of_pos hne).symm⟩
        obtain ⟨h1, h2⟩ := inputAt_good input L (by omega)
        have hlen := congrArg List.length h2
        rw [List.length_drop, hL] at hlen
        have hget : (pieces input)[L]? = (pieces (inputAt input L).rest)[0]? := by rw [h2]; simp
        rw [hL, Nat.add_zero, Nat.add_sub_cancel, hget, show inputAt input (L + 1) = (inputAt input L).getline from rfl]
        unfold Input.getline
        rw [h1]
        simp only [Bool.not_true, Bool.false_eq_true, if_false]
        cases hd : (inputAt input L).rest.dropWhile (· ≠ '\n') with
        | nil => rw [pieces_last hd]; exact ⟨rfl, rfl⟩
        | cons d t =>
          rw [pieces_cons hd] at hlen
          have := List.length_pos_iff.2 (pieces_ne t)
          simp only [List.length_cons] at hlen
          omega
      | succ j ih =>
        have : inputAt input ((pieces input).length + (j + 1)) = inputAt input ((pieces input).length + j) := by
          rw [← Nat.add_assoc]
          conv_lhs => unfold inputAt Input.getline
          rw [ih.1]
          rfl
        rw [this]
        exact ih
    obtain ⟨j, hj⟩ : ∃ j, k + 1 = (pieces input).length + j := ⟨k + 1 - (pieces input).length, by omega⟩
    rw [hj]
    exact (key j).2

/-! ### the loop -/

theorem loop_snoc (n : Nat) (w : World E) : loop E (n + 1) w =
    match loop E n w with
    | (.again, w) => iter E w
    | r => r := by
  induction n generalizing w with
  | zero =>
    show (match iter E w with | (.again, w) => loop E 0 w | r => r) = iter E w
    rcases iter E w with ⟨r, w'⟩
    cases r <;> rfl
  | succ n ih =>
    conv_lhs => unfold loop
    conv_rhs => unfold loop
    rcases iter E w with ⟨r, w'⟩
    cases r <;> first | exact ih w' | rfl

theorem iter_inp (w : World E) : (iter E w).2.inp = w.inp.getline := by
  unfold iter
  simp only
  rcases dispatch E w.inp.getline.str w.st with ⟨r, s, o⟩
  cases r with
  | ok b => cases b <;> rfl
  | _ => rfl

theorem iter_st (w : World E) : (iter E w).2.st = (dispatch E w.inp.getline.str w.st).2.1 := by
  unfold iter
  simp only
  rcases dispatch E w.inp.getline.str w.st with ⟨r, s, o⟩
  cases r with
  | ok b => cases b <;> rfl
  | _ => rfl

theorem iter_again (w : World E) : (iter E w).1 = .again ↔
    (dispatch E w.inp.getline.str w.st).1 = .ok false ∨ ∃ m, (dispatch E w.inp.getline.str w.st).1 = .throw m := by
  unfold iter
  simp only
  rcases dispatch E w.inp.getline.str w.st with ⟨r, s, o⟩
  cases r with
  | ok b => cases b <;> simp
  | _ => simp

theorem iter_exit (w : World E) : (iter E w).1 = .exit ↔ (dispatch E w.inp.getline.str w.st).1 = .ok true := by
  unfold iter
  simp only
  rcases dispatch E w.inp.getline.str w.st with ⟨r, s, o⟩
  cases r with
  | ok b => cases b <;> simp
  | _ => simp

theorem mainloop_snoc (n : Nat) (s : St E) (input : List Char) : mainloop E (n + 1) s input =
    match mainloop E n s input with
    | (.again, w) => iter E w
    | r => r := loop_snoc n _

theorem mainloop_succ_again {n : Nat} {s : St E} {input : List Char} :
    (mainloop E (n + 1) s input).1 = .again ↔ (mainloop E n s input).1 = .again ∧
      (iter E (mainloop E n s input).2).1 = .again := by
  rw [mainloop_snoc]
  rcases mainloop E n s input with ⟨r, w⟩
  cases r <;> simp

theorem mainloop_succ {n : Nat} {s : St E} {input : List Char} (h : (mainloop E n s input).1 = .again) :
    mainloop E (n + 1) s input = iter E (mainloop E n s input).2 := by
  rw [mainloop_snoc]
  rcases hm : mainloop E n s input with ⟨r, w⟩
  rw [hm] at h
  simp only at h
  subst h
  rfl

theorem mainloop_stop {n : Nat} {s : St E} {input : List Char} (h : (mainloop E n s input).1 ≠ .again) :
    mainloop E (n + 1) s input = mainloop E n s input := by
  rw [mainloop_snoc]
  rcases hm : mainloop E n s input with ⟨r, w⟩
  rw [hm] at h
  simp only at h
  cases r <;> first | rfl | exact absurd rfl h

theorem mainloop_inp {n : Nat} {s : St E} {input : List Char} (h : (mainloop E n s input).1 = .again) :
    (mainloop E n s input).2.inp = inputAt input n := by
  induction n with
  | zero => rfl
  | succ n ih =>
    have h1 := (mainloop_succ_again.1 h).1
    rw [mainloop_succ h1, iter_inp, ih h1]
    rfl

theorem mainloop_line {n : Nat} {s : St E} {input : List Char} (h : (mainloop E n s input).1 = .again) :
    (mainloop E n s input).2.inp.getline.str = lineAt input n := by
  rw [mainloop_inp h]; exact inputAt_str input n

theorem mainloop_st {n : Nat} {s : St E} {input : List Char} (h : (mainloop E n s input).1 = .again) :
    (mainloop E (n + 1) s input).2.st = (dispatch E (lineAt input n) (mainloop E n s input).2.st).2.1 := by
  rw [mainloop_succ h, iter_st, mainloop_line h]

/-- the lines read so far. -/
theorem lines_succ (input : List Char) (n : Nat) :
    (List.range (n + 1)).map (lineAt input) = (List.range n).map (lineAt input) ++ [lineAt input n] := by
  rw [List.range_succ, List.map_append]; rfl

theorem funcs_latest {n : Nat} {s : St E} {input : List Char} (h : (mainloop E n s input).1 = .again) (name : List Char) :
    Latest (Defines E name) (s.funcs.find name) ((List.range n).map (lineAt input))
      ((mainloop E n s input).2.st.funcs.find name) := by
  induction n with
  | zero => exact .start
  | succ n ih =>
    obtain ⟨h1, h2⟩ := mainloop_succ_again.1 h
    rw [lines_succ, mainloop_st h1]
    have ha : Alive (dispatch E (lineAt input n) (mainloop E n s input).2.st).1 := by
      rw [← mainloop_line h1]
      rcases (iter_again _).1 h2 with h | h
      · exact Or.inl ⟨_, h⟩
      · exact Or.inr h
    rcases dispatch_funcs ha name with ⟨fn, hD, he⟩ | ⟨hD, he⟩
    · rw [he]; exact .now hD
    · rw [he]; exact .before hD (ih h1)

theorem consts_latest {n : Nat} {s : St E} {input : List Char} (h : (mainloop E n s input).1 = .again) (name : List Char) :
    Latest (DefinesConst E name) (s.constants.find name) ((List.range n).map (lineAt input))
      ((mainloop E n s input).2.st.constants.find name) := by
  induction n with
  | zero => exact .start
  | succ n ih =>
    obtain ⟨h1, h2⟩ := mainloop_succ_again.1 h
    rw [lines_succ, mainloop_st h1]
    rcases dispatch_consts (s := (mainloop E n s input).2.st) (line := lineAt input n) name with ⟨fn, hD, he⟩ | ⟨hD, he⟩
    · rw [he]; exact .now hD
    · rw [he]; exact .before hD (ih h1)

/-! ### `quit` -/

theorem dispatch_quit {line : List Char} {s : St E} (h : word line = "quit".toList) :
    dispatch E line s = (.ok true, s, []) := by
  unfold word at h
  unfold dispatch
  simp only [h]
  rfl

theorem bind_false {c : Cmd E Unit} {s : St E} : ((do c; Cmd.pure false : Cmd E Bool) s).1 ≠ .ok true := by
  rw [bind_def]
  rcases c s with ⟨r, s', o⟩
  cases r <;> simp [Cmd.pure]

/-- no command yields `true`. -/
def NotTrue (c : Cmd E Bool) : Prop := ∀ s, (c s).1 ≠ .ok true

theorem NotTrue.bind {c : Cmd E Unit} {f : Unit → Cmd E Bool} (h : ∀ u, NotTrue (f u)) : NotTrue (c >>= f) := by
  intro s
  rw [bind_def]
  rcases c s with ⟨r, s', o⟩
  cases r with
  | ok a => exact h a s'
  | _ => simp

theorem dispatch_notTrue {line : List Char} (h : word line ≠ "quit".toList) : NotTrue (dispatch E line) := by
  unfold word at h
  unfold dispatch
  simp only
  refine NotTrue.bind fun _ => NotTrue.bind fun _ => ?_
  repeat' split
  all_goals first
    | exact fun s => bind_false
    | (rename_i hq; exact absurd hq h)

theorem dispatch_true_iff {line : List Char} {s : St E} :
    (dispatch E line s).1 = .ok true ↔ word line = "quit".toList := by
  constructor
  · intro h
    by_contra hw
    exact dispatch_notTrue hw s h
  · intro h; rw [dispatch_quit h]

theorem exit_iff {n : Nat} {s : St E} {input : List Char} : (mainloop E n s input).1 = .exit ↔
    ∃ k < n, word (lineAt input k) = "quit".toList ∧ (mainloop E k s input).1 = .again := by
  induction n with
  | zero => simp [mainloop, loop]
  | succ n ih =>
    by_cases ha : (mainloop E n s input).1 = .again
    · rw [mainloop_succ ha, iter_exit, mainloop_line ha, dispatch_true_iff]
      constructor
      · intro h; exact ⟨n, by omega, h, ha⟩
      · rintro ⟨k, hk, hw, hka⟩
        by_cases hkn : k = n
        · subst hkn; exact hw
        · exfalso
          have := ih.2 ⟨k, by omega, hw, hka⟩
          rw [ha] at this
          cases this
    · rw [mainloop_stop ha, ih]
      constructor
      · rintro ⟨k, hk, h⟩; exact ⟨k, by omega, h⟩
      · rintro ⟨k, hk, hw, hka⟩
        by_cases hkn : k = n
        · subst hkn; exact absurd hka ha
        · exact ⟨k, by omega, hw, hka⟩

theorem again_mono {n k : Nat} {s : St E} {input : List Char} (h : (mainloop E n s input).1 = .again) (hk : k ≤ n) :
    (mainloop E k s input).1 = .again := by
  induction n with
  | zero => rw [show k = 0 by omega]; exact h
  | succ n ih =>
    by_cases e : k = n + 1
    · rw [e]; exact h
    · exact ih (mainloop_succ_again.1 h).1 (by omega)

end Symxx.Cli

import Verif.Cli.Func
/-!
# One line, many lines
-/
namespace Symxx.Cli
open Symxx.Num Symxx.Sym Cmd

variable {E : CEnv}

/-- the command ended normally or with an `Error`: the session goes on (or quits). -/
def Alive {α : Type} (r : Res α) : Prop := (∃ a, r = .ok a) ∨ ∃ m, r = .throw m

theorem word_prefix {w t : List Char} (h : ' ' ∉ w) : word (w ++ ' ' :: t) = w := (split_at h).1

theorem word_of_defines {name line : List Char} {fn : Fn} (h : Defines E name line fn) :
    ∃ body, line = "func ".toList ++ body := by
  obtain ⟨inside, blanks, text, n, rfl, -⟩ := h
  simp only [List.append_assoc]
  exact ⟨_, rfl⟩

theorem word_of_definesConst {name line : List Char} {v : E.LD} (h : DefinesConst E name line v) :
    ∃ body, line = "constant ".toList ++ body := by
  obtain ⟨pre, text, rfl, -⟩ := h
  simp only [List.append_assoc]
  exact ⟨_, rfl⟩

theorem word_func (b : List Char) : word ("func ".toList ++ b) = "func".toList :=
  word_prefix (w := "func".toList) (t := b) (by decide)
theorem word_constant (b : List Char) : word ("constant ".toList ++ b) = "constant".toList :=
  word_prefix (w := "constant".toList) (t := b) (by decide)

theorem drop_func (b : List Char) : (("func ".toList ++ b).dropWhile (· ≠ ' ')).tail = b :=
  congrArg List.tail (split_at (c := ' ') (a := "func".toList) (b := b) (by decide)).2
theorem drop_constant (b : List Char) : (("constant ".toList ++ b).dropWhile (· ≠ ' ')).tail = b :=
  congrArg List.tail (split_at (c := ' ') (a := "constant".toList) (b := b) (by decide)).2

/-- `c; return false`: same state, same output. -/
theorem then_false (c : Cmd E Unit) (s : St E) : ((do c; Cmd.pure false : Cmd E Bool) s).2 = (c s).2 ∧
    (Alive ((do c; Cmd.pure false : Cmd E Bool) s).1 ↔ Alive (c s).1) ∧
    ∀ m, ((do c; Cmd.pure false : Cmd E Bool) s).1 = .throw m ↔ (c s).1 = .throw m := by
  rw [bind_def]
  rcases c s with ⟨r, s', o⟩
  cases r <;> simp [Cmd.pure, Alive]

/-- what a `func` command does. -/
theorem cmdFunc_cases (body : List Char) (s : St E) :
    (∃ name fn, funcDef E body = .ok (name, fn) ∧
      ((cmdFunc E body s).2.1 = s.define (name, fn) ∧
        (∀ m, (cmdFunc E body s).1 = .throw m → Node.toStr E.f.toEnv fn.body = .throw m) ∨
      (cmdFunc E body s).2.1 = s ∧ ¬ Alive (cmdFunc E body s).1)) ∨
    ((∀ d, funcDef E body ≠ .ok d) ∧ (cmdFunc E body s).2.1 = s ∧ ¬ ∃ a, (cmdFunc E body s).1 = .ok a) := by
  rw [cmdFunc_eq, lift_bind]
  cases hd : funcDef E body with
  | ok d =>
    obtain ⟨name, fn⟩ := d
    left
    refine ⟨name, fn, rfl, ?_⟩
    simp only
    have hg : ∀ f : St E → Cmd E Unit, (get >>= f) s = f s s := fun f => by
      rw [bind_def]; rfl
    rw [hg, lift_bind]
    have ha : assignNode (s.funcs.find name) fn.body = .ok () ∨ ∃ m, assignNode (s.funcs.find name) fn.body = .ub m := by
      unfold assignNode; split
      · exact Or.inr ⟨_, rfl⟩
      · exact Or.inl rfl
    rcases ha with ha | ⟨m, ha⟩
    · rw [ha]
      left
      simp only
      have hp : ∀ (s' : St E) (c : Cmd E Unit), (put s' >>= fun _ => c) s = c s' := fun s' c => by
        rw [bind_def]; rfl
      rw [hp]
      refine ⟨keeps_printFunc name _, fun m hm => ?_⟩
      unfold printFunc at hm
      have hg' : ∀ f : St E → Cmd E Unit, (get >>= f) (s.define (name, fn)) = f (s.define (name, fn)) (s.define (name, fn)) :=
        fun f => by rw [bind_def]; rfl
      rw [hg'] at hm
      have hfind : (s.define (name, fn)).funcs.find name = some fn := by
        unfold St.define; rw [Table.find_set, if_pos rfl]
      rw [hfind] at hm
      simp only at hm
      rw [lift_bind] at hm
      cases ht : Node.toStr E.f.toEnv fn.body with
      | throw m' => rw [ht] at hm; simpa using hm
      | ok t => rw [ht] at hm; cases hm
      | _ => rw [ht] at hm; cases hm
    · rw [ha]
      right
      exact ⟨rfl, by rintro (⟨a, h⟩ | ⟨a, h⟩) <;> cases h⟩
  | _ => right; exact ⟨by simp, rfl, by rintro ⟨a, h⟩; cases h⟩

/-- what a `constant` command does. -/
theorem cmdConstant_cases (body : List Char) (s : St E) :
    (∃ d, constDef E body = .ok d ∧ (cmdConstant E body s).2.1 = s.defineC d ∧ (cmdConstant E body s).1 = .ok ()) ∨
    ((∀ d, constDef E body ≠ .ok d) ∧ (cmdConstant E body s).2.1 = s ∧ ¬ ∃ a, (cmdConstant E body s).1 = .ok a) := by
  rw [cmdConstant_eq, lift_bind]
  cases hd : constDef E body with
  | ok d =>
    left
    refine ⟨d, rfl, ?_⟩
    have h : ((do
        let s ← get
        put (s.defineC d)
        printConstant E d.1 : Cmd E Unit) s) = ((printConstant E d.1) (s.defineC d)) := by
      rw [bind_def]
      simp only [Cmd.get]
      rw [bind_def]
      rfl
    simp only
    rw [h]
    refine ⟨keeps_printConstant _ _, ?_⟩
    unfold printConstant
    rw [bind_def]
    simp only [Cmd.get]
    have hfind : (s.defineC d).constants.find d.1 = some d.2 := by
      unfold St.defineC; rw [Table.find_set, if_pos rfl]
    rw [hfind]
    rfl
  | _ => right; exact ⟨by simp, rfl, by rintro ⟨a, h⟩; cases h⟩

/-- functions after one line. -/
theorem dispatch_funcs {line : List Char} {s : St E} (h : Alive (dispatch E line s).1) (name : List Char) :
    (∃ fn, Defines E name line fn ∧ (dispatch E line s).2.1.funcs.find name = some fn) ∨
    (∀ fn, ¬ Defines E name line fn) ∧ (dispatch E line s).2.1.funcs.find name = s.funcs.find name := by
  by_cases hd : Defining line
  · rcases hd with hw | hw
    · rw [dispatch_func hw] at h ⊢
      obtain ⟨t1, t2, -⟩ := then_false (cmdFunc E (line.dropWhile (· ≠ ' ')).tail) s
      rw [t2] at h
      rw [t1]
      have key : ∀ fn, Defines E name line fn ↔ funcDef E (line.dropWhile (· ≠ ' ')).tail = .ok (name, fn) := by
        intro fn
        rcases line_of_word hw with e | e
        · have e' : (line.dropWhile (· ≠ ' ')).tail = [] := by rw [e]; decide
          rw [e']
          constructor
          · intro hD
            obtain ⟨b, hb⟩ := word_of_defines hD
            rw [e] at hb
            have := congrArg List.length hb
            simp at this
          · intro hD; simp [funcDef] at hD
        · rw [← defines_iff]
          have : "func ".toList ++ (line.dropWhile (· ≠ ' ')).tail = line := by
            conv_rhs => rw [e]
            simp
          rw [this]
      rcases cmdFunc_cases (line.dropWhile (· ≠ ' ')).tail s with ⟨n', fn, h1, h2⟩ | ⟨h1, h2, -⟩
      · rcases h2 with ⟨h2, -⟩ | ⟨-, h2⟩
        · rw [h2]
          unfold St.define
          simp only
          rw [Table.find_set]
          by_cases hn : name = n'
          · subst hn
            left; exact ⟨fn, (key fn).2 h1, if_pos rfl⟩
          · right
            refine ⟨fun fn' hD => ?_, if_neg hn⟩
            rw [key, h1] at hD
            injection hD with hD
            injection hD with hD
            exact hn hD.symm
        · exact absurd h h2
      · right
        exact ⟨fun fn' hD => h1 _ ((key fn').1 hD), by rw [h2]⟩
    · right
      rw [dispatch_constant hw]
      obtain ⟨t1, -⟩ := then_false (cmdConstant E (line.dropWhile (· ≠ ' ')).tail) s
      rw [t1]
      refine ⟨fun fn hD => ?_, ?_⟩
      · obtain ⟨b, rfl⟩ := word_of_defines hD
        rw [word_func] at hw
        exact absurd hw (by decide)
      · rcases cmdConstant_cases (line.dropWhile (· ≠ ' ')).tail s with ⟨d, -, h2, -⟩ | ⟨-, h2, -⟩
        · rw [h2]; rfl
        · rw [h2]
  · right
    refine ⟨fun fn hD => ?_, by rw [keeps_dispatch hd s]⟩
    obtain ⟨b, rfl⟩ := word_of_defines hD
    exact hd (Or.inl (word_func b))

/-- constants after one line. -/
theorem dispatch_consts {line : List Char} {s : St E} (name : List Char) :
    (∃ v, DefinesConst E name line v ∧ (dispatch E line s).2.1.constants.find name = some v) ∨
    (∀ v, ¬ DefinesConst E name line v) ∧ (dispatch E line s).2.1.constants.find name = s.constants.find name := by
  by_cases hd : Defining line
  · rcases hd with hw | hw
    · right
      rw [dispatch_func hw]
      obtain ⟨t1, -⟩ := then_false (cmdFunc E (line.dropWhile (· ≠ ' ')).tail) s
      rw [t1]
      refine ⟨fun fn hD => ?_, ?_⟩
      · obtain ⟨b, rfl⟩ := word_of_definesConst hD
        rw [word_constant] at hw
        exact absurd hw (by decide)
      · rcases cmdFunc_cases (line.dropWhile (· ≠ ' ')).tail s with ⟨n, fn, -, ⟨h2, -⟩ | ⟨h2, -⟩⟩ | ⟨-, h2, -⟩
        · rw [h2]; rfl
        · rw [h2]
        · rw [h2]
    · rw [dispatch_constant hw]
      obtain ⟨t1, -⟩ := then_false (cmdConstant E (line.dropWhile (· ≠ ' ')).tail) s
      rw [t1]
      have key : ∀ v, DefinesConst E name line v ↔ constDef E (line.dropWhile (· ≠ ' ')).tail = .ok (name, v) := by
        intro v
        rcases line_of_word hw with e | e
        · have e' : (line.dropWhile (· ≠ ' ')).tail = [] := by rw [e]; decide
          rw [e']
          constructor
          · intro hD
            obtain ⟨b, hb⟩ := word_of_definesConst hD
            rw [e] at hb
            have := congrArg List.length hb
            simp at this
          · intro hD; simp [constDef] at hD
        · rw [← definesConst_iff]
          have : "constant ".toList ++ (line.dropWhile (· ≠ ' ')).tail = line := by
            conv_rhs => rw [e]
            simp
          rw [this]
      rcases cmdConstant_cases (line.dropWhile (· ≠ ' ')).tail s with ⟨⟨n', v⟩, h1, h2, -⟩ | ⟨h1, h2, -⟩
      · rw [h2]
        unfold St.defineC
        simp only
        rw [Table.find_set]
        by_cases hn : name = n'
        · subst hn
          left; exact ⟨v, (key v).2 h1, if_pos rfl⟩
        · right
          refine ⟨fun v' hD => ?_, if_neg hn⟩
          rw [key, h1] at hD
          injection hD with hD
          injection hD with hD
          exact hn hD.symm
      · right
        exact ⟨fun fn' hD => h1 _ ((key fn').1 hD), by rw [h2]⟩
  · right
    refine ⟨fun fn hD => ?_, by rw [keeps_dispatch hd s]⟩
    obtain ⟨b, rfl⟩ := word_of_definesConst hD
    exact hd (Or.inr (word_constant b))

/-- the state after an `Error`. -/
theorem dispatch_throw {line : List Char} {s : St E} {m : String} (h : (dispatch E line s).1 = .throw m) :
    (dispatch E line s).2.1 = s ∨ ∃ name fn, Defines E name line fn ∧
      (dispatch E line s).2.1 = ⟨s.funcs.set name fn, s.constants⟩ ∧ Node.toStr E.f.toEnv fn.body = .throw m := by
  by_cases hd : Defining line
  · rcases hd with hw | hw
    · rw [dispatch_func hw] at h ⊢
      obtain ⟨t1, t2, t3⟩ := then_false (cmdFunc E (line.dropWhile (· ≠ ' ')).tail) s
      rw [t3] at h
      rw [t1]
      rcases cmdFunc_cases (line.dropWhile (· ≠ ' ')).tail s with ⟨n', fn, h1, ⟨h2, h3⟩ | ⟨h2, -⟩⟩ | ⟨h1, h2, -⟩
      · right
        refine ⟨n', fn, ?_, h2, h3 m h⟩
        rcases line_of_word hw with e | e
        · have e' : (line.dropWhile (· ≠ ' ')).tail = [] := by rw [e]; decide
          rw [e'] at h1; simp [funcDef] at h1
        · rw [← defines_iff] at h1
          have : "func ".toList ++ (line.dropWhile (· ≠ ' ')).tail = line := by
            conv_rhs => rw [e]
            simp
          rwa [this] at h1
      · exact Or.inl h2
      · exact Or.inl h2
    · left
      rw [dispatch_constant hw] at h ⊢
      obtain ⟨t1, t2, t3⟩ := then_false (cmdConstant E (line.dropWhile (· ≠ ' ')).tail) s
      rw [t3] at h
      rw [t1]
      rcases cmdConstant_cases (line.dropWhile (· ≠ ' ')).tail s with ⟨d, -, -, h3⟩ | ⟨-, h2, -⟩
      · rw [h] at h3; cases h3
      · exact h2
  · left; exact keeps_dispatch hd s

end Symxx.Cli

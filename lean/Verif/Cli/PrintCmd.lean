import Verif.Cli.Session
/-!
# What `print` shows
-/
namespace Symxx.Cli
open Symxx.Num Symxx.Sym Cmd

variable {E : CEnv}

/-- the line that shows a function: its name, its parameters separated by commas, the text of its body. -/
def funcText (name : List Char) (params : List (List Char)) (t : List Char) : List Char :=
  "Function: ".toList ++ name ++ ['('] ++ [','].intercalate params ++ ") = ".toList ++ t ++ ['\n']

/-- the line that shows a constant. -/
def constText (name v : List Char) : List Char := "Constant: ".toList ++ name ++ " = ".toList ++ v ++ ['\n']

/-- what is shown of a function: its line if there is one of that name, otherwise nothing. -/
inductive FuncShown (E : CEnv) (name : List Char) : Option Fn → List Char → Prop where
  | none : FuncShown E name none []
  | some {fn t} : Node.toStr E.f.toEnv fn.body = .ok t → FuncShown E name (some fn) (funcText name fn.params t)

/-- what is shown of a constant. -/
def constShown (E : CEnv) (name : List Char) (v : Option E.LD) : List Char :=
  match v with
  | none => []
  | some v => constText name (E.showLD v)

theorem FuncShown.unique {name : List Char} {x : Option Fn} {o p : List Char} (ho : FuncShown E name x o)
    (hp : FuncShown E name x p) : o = p := by
  generalize hx : x = y at hp
  rcases ho with _ | ⟨h1⟩
  · generalize hq : p = q at hp
    rcases hp with _ | ⟨h2⟩
    · rfl
    · cases hx
  · generalize hq : p = q at hp
    rcases hp with _ | ⟨h2⟩
    · cases hx
    · injection hx with hx
      subst hx
      rw [h1] at h2
      injection h2 with h2
      rw [h2]

theorem argStr_eq (l : List (List Char)) : argStr l = [','].intercalate l := by
  have key : ∀ l : List (List Char), l ≠ [] → (l.flatMap fun a => a ++ [',']) = [','].intercalate l ++ [','] := by
    intro l
    induction l with
    | nil => intro h; exact absurd rfl h
    | cons p r ih =>
      intro _
      cases r with
      | nil => simp
      | cons q r => rw [List.flatMap_cons, ih (by simp), inter_cons]; simp
  unfold argStr
  cases l with
  | nil => rfl
  | cons p r => rw [key _ (by simp), List.dropLast_concat]

theorem get_bind {α : Type} (f : St E → Cmd E α) (s : St E) : (get >>= f) s = f s s := by rw [bind_def]; rfl

theorem printFunc_some {s : St E} {name : List Char} {fn : Fn} (h : s.funcs.find name = some fn) :
    printFunc E name s = (lift (Node.toStr E.f.toEnv fn.body) >>= fun t => print (funcText name fn.params t)) s := by
  unfold printFunc
  rw [get_bind, h]
  unfold funcText
  simp only [argStr_eq]

theorem printFunc_ok {s : St E} {name : List Char} {fn : Fn} {t : List Char} (h : s.funcs.find name = some fn)
    (ht : Node.toStr E.f.toEnv fn.body = .ok t) : printFunc E name s = (.ok (), s, funcText name fn.params t) := by
  rw [printFunc_some h, lift_bind, ht]; rfl

theorem printConstant_some {s : St E} {name : List Char} {v : E.LD} (h : s.constants.find name = some v) :
    printConstant E name s = (.ok (), s, constText name (E.showLD v)) := by
  unfold printConstant
  rw [get_bind, h]
  rfl

theorem cmdFunc_ok {body : List Char} {s : St E} (h : (cmdFunc E body s).1 = .ok ()) :
    ∃ name fn t, funcDef E body = .ok (name, fn) ∧ Node.toStr E.f.toEnv fn.body = .ok t ∧
      cmdFunc E body s = (.ok (), s.define (name, fn), funcText name fn.params t) := by
  rw [cmdFunc_eq, lift_bind] at h ⊢
  cases hd : funcDef E body with
  | ok d =>
    obtain ⟨name, fn⟩ := d
    rw [hd] at h
    simp only at h ⊢
    rw [get_bind, lift_bind] at h ⊢
    have ha : assignNode (s.funcs.find name) fn.body = .ok () ∨ ∃ m, assignNode (s.funcs.find name) fn.body = .ub m := by
      unfold assignNode; split
      · exact Or.inr ⟨_, rfl⟩
      · exact Or.inl rfl
    rcases ha with ha | ⟨m, ha⟩
    · rw [ha] at h ⊢
      simp only at h ⊢
      have hp : ∀ (s' : St E) (c : Cmd E Unit), (put s' >>= fun _ => c) s = c s' := fun s' c => by
        rw [bind_def]; rfl
      rw [hp] at h ⊢
      have hfind : (s.define (name, fn)).funcs.find name = some fn := by
        unfold St.define; rw [Table.find_set, if_pos rfl]
      cases ht : Node.toStr E.f.toEnv fn.body with
      | ok t => exact ⟨name, fn, t, rfl, ht, printFunc_ok hfind ht⟩
      | _ => rw [printFunc_some hfind, lift_bind, ht] at h; cases h
    · rw [ha] at h; cases h
  | _ => rw [hd] at h; cases h

theorem cmdConstant_ok {body : List Char} {s : St E} (h : (cmdConstant E body s).1 = .ok ()) :
    ∃ name v, constDef E body = .ok (name, v) ∧
      cmdConstant E body s = (.ok (), s.defineC (name, v), constText name (E.showLD v)) := by
  rw [cmdConstant_eq, lift_bind] at h ⊢
  cases hd : constDef E body with
  | ok d =>
    obtain ⟨name, v⟩ := d
    simp only
    rw [get_bind]
    have hp : ∀ (s' : St E) (c : Cmd E Unit), (put s' >>= fun _ => c) s = c s' := fun s' c => by
      rw [bind_def]; rfl
    rw [hp]
    refine ⟨name, v, rfl, printConstant_some ?_⟩
    unfold St.defineC; rw [Table.find_set, if_pos rfl]
  | _ => rw [hd] at h; cases h

/-- `c; return false`. -/
theorem then_false_eq {c : Cmd E Unit} {s s' : St E} {o : List Char} (h : c s = (.ok (), s', o)) :
    (do c; Cmd.pure false : Cmd E Bool) s = (.ok false, s', o) := by
  rw [bind_def, h]; simp [Cmd.pure]

theorem then_false_ok {c : Cmd E Unit} {s : St E} {b : Bool} (h : ((do c; Cmd.pure false : Cmd E Bool) s).1 = .ok b) :
    (c s).1 = .ok () := by
  rw [bind_def] at h
  rcases hc : c s with ⟨r, s', o⟩
  rw [hc] at h
  cases r with
  | ok a => rfl
  | _ => cases h

theorem defLine {w line : List Char} (hw : word line = w) (hr : rest line ≠ []) : w ++ ' ' :: rest line = line := by
  unfold word at hw
  unfold rest at *
  cases hd : line.dropWhile (· ≠ ' ') with
  | nil => rw [hd] at hr; exact absurd rfl hr
  | cons c t =>
    obtain ⟨-, h2, -⟩ := split_of hd
    rw [hw] at h2
    simpa [hd] using h2.symm

/-- what one line that succeeds does to functions and constants, and what it prints if it defines something. -/
theorem dispatch_change {line : List Char} {s : St E} {b : Bool} (h : (dispatch E line s).1 = .ok b) :
    (dispatch E line s).2.1 = s ∨
    (∃ name fn t, Defines E name line fn ∧ Node.toStr E.f.toEnv fn.body = .ok t ∧
      dispatch E line s = (.ok false, s.define (name, fn), funcText name fn.params t)) ∨
    (∃ name v, DefinesConst E name line v ∧ dispatch E line s = (.ok false, s.defineC (name, v), constText name (E.showLD v))) := by
  by_cases hd : Defining line
  · rcases hd with hw | hw
    · right; left
      rw [dispatch_func hw] at h ⊢
      obtain ⟨name, fn, t, h1, h2, h3⟩ := cmdFunc_ok (then_false_ok h)
      refine ⟨name, fn, t, ?_, h2, then_false_eq h3⟩
      rw [← defines_iff] at h1
      have e := defLine hw (fun e => by
        unfold rest at e; rw [defines_iff, e] at h1; simp [funcDef] at h1)
      have e' : "func ".toList ++ (line.dropWhile (· ≠ ' ')).tail = line := by simpa [rest] using e
      rwa [e'] at h1
    · right; right
      rw [dispatch_constant hw] at h ⊢
      obtain ⟨name, v, h1, h3⟩ := cmdConstant_ok (then_false_ok h)
      refine ⟨name, v, ?_, then_false_eq h3⟩
      rw [← definesConst_iff] at h1
      have e := defLine hw (fun e => by
        unfold rest at e; rw [definesConst_iff, e] at h1; simp [constDef] at h1)
      have e' : "constant ".toList ++ (line.dropWhile (· ≠ ' ')).tail = line := by simpa [rest] using e
      rwa [e'] at h1
  · left; exact keeps_dispatch hd s

/-! ### the tables are sorted by name -/

/-- the names of a table. -/
abbrev Table.names {α : Type} (t : Table α) : List (List Char) := t.map Prod.fst

theorem Table.names_set {α : Type} (t : Table α) (k : List Char) (v : α) (h : t.names.Pairwise (· < ·)) :
    (t.set k v).names.Pairwise (· < ·) ∧ ∀ x, x ∈ (t.set k v).names ↔ x = k ∨ x ∈ t.names := by
  induction t with
  | nil => simp [Table.set, Table.names]
  | cons p t ih =>
    obtain ⟨k', v'⟩ := p
    simp only [Table.names, List.map_cons, List.pairwise_cons] at h
    obtain ⟨h1, h2⟩ := ih h.2
    unfold Table.set
    split
    · rename_i hlt
      simp only [Table.names, List.map_cons, List.pairwise_cons, List.mem_cons]
      refine ⟨⟨?_, h.1, h.2⟩, fun _ => trivial⟩
      rintro x (rfl | hx)
      · exact hlt
      · exact List.lt_trans hlt (h.1 x hx)
    · split
      · rename_i he; subst he
        simp only [Table.names, List.map_cons, List.pairwise_cons, List.mem_cons]
        exact ⟨h, fun x => by tauto⟩
      · rename_i hlt hne
        simp only [Table.names, List.map_cons, List.pairwise_cons, List.mem_cons]
        refine ⟨⟨?_, h1⟩, fun x => by rw [h2 x]; tauto⟩
        intro x hx
        rcases (h2 x).1 hx with rfl | hx
        · rcases lt_trichotomy x k' with hl | he | hl
          · exact absurd hl hlt
          · exact absurd he hne
          · exact hl
        · exact h.1 x hx

theorem Table.find_mem {α : Type} (t : Table α) (k : List Char) : k ∈ t.names ↔ ∃ v, t.find k = some v := by
  induction t with
  | nil => simp [Table.find, Table.names]
  | cons p t ih =>
    obtain ⟨k', v'⟩ := p
    simp only [Table.names, List.map_cons, List.mem_cons, Table.find]
    by_cases h : k = k'
    · simp [h]
    · simp [h, ih]

/-- what holds of the tables in every session: sorted by name, and every body has a text. -/
structure Tidy (s : St E) : Prop where
  funcs : s.funcs.names.Pairwise (· < ·)
  constants : s.constants.names.Pairwise (· < ·)
  body : ∀ name fn, s.funcs.find name = some fn → ∃ t, Node.toStr E.f.toEnv fn.body = .ok t

theorem Tidy.define {s : St E} (h : Tidy s) {name : List Char} {fn : Fn} {t : List Char}
    (ht : Node.toStr E.f.toEnv fn.body = .ok t) : Tidy (s.define (name, fn)) where
  funcs := (Table.names_set _ _ _ h.funcs).1
  constants := h.constants
  body := by
    intro n g hg
    unfold St.define at hg
    rw [Table.find_set] at hg
    split at hg
    · injection hg with hg; subst hg; exact ⟨t, ht⟩
    · exact h.body n g hg

theorem Tidy.defineC {s : St E} (h : Tidy s) (d : List Char × E.LD) : Tidy (s.defineC d) where
  funcs := h.funcs
  constants := (Table.names_set _ _ _ h.constants).1
  body := h.body

theorem Tidy.line {s : St E} (h : Tidy s) {line : List Char} {b : Bool} (hd : (dispatch E line s).1 = .ok b) :
    Tidy (dispatch E line s).2.1 := by
  rcases dispatch_change hd with e | ⟨name, fn, t, -, ht, e⟩ | ⟨name, v, -, e⟩
  · rw [e]; exact h
  · rw [e]; exact h.define ht
  · rw [e]; exact h.defineC _

/-! ### `print` -/

theorem dispatch_print {line : List Char} (h : word line = "print".toList) :
    dispatch E line = (do cmdPrint E (rest line); Cmd.pure false) := by
  unfold word at h
  unfold dispatch rest
  simp only [h]
  funext s
  rfl

theorem when_ok {x : Option Fn} {name : List Char} {s : St E} (hx : s.funcs.find name = x) {o : List Char}
    (h : FuncShown E name x o) : when (E := E) x.isSome (printFunc E name) s = (.ok (), s, o) := by
  cases h with
  | none => rfl
  | some ht => exact printFunc_ok hx ht

theorem when_const {x : Option E.LD} {name : List Char} {s : St E} (hx : s.constants.find name = x) :
    when (E := E) x.isSome (printConstant E name) s = (.ok (), s, constShown E name x) := by
  cases x with
  | none => rfl
  | some v => exact printConstant_some hx

theorem seq_ok {x y : Cmd E Unit} {s : St E} {o p : List Char} (hx : x s = (.ok (), s, o)) (hy : y s = (.ok (), s, p)) :
    (x >>= fun _ => y) s = (.ok (), s, o ++ p) := by
  rw [bind_def, hx]; simp only [hy]

theorem cmdPrint_named {s : St E} {name : List Char} (hn : name ≠ []) {o : List Char}
    (h : FuncShown E name (s.funcs.find name) o) :
    cmdPrint E name s = (.ok (), s, o ++ constShown E name (s.constants.find name)) := by
  unfold cmdPrint
  rw [get_bind]
  have : name.isEmpty = false := by cases name with
    | nil => exact absurd rfl hn
    | cons => rfl
  rw [this]
  exact seq_ok (when_ok rfl h) (when_const rfl)

theorem seqAll_ok {s : St E} (l : List (Cmd E Unit × List Char)) (h : ∀ p ∈ l, p.1 s = (.ok (), s, p.2)) :
    seqAll E (l.map Prod.fst) s = (.ok (), s, (l.map Prod.snd).flatten) := by
  induction l with
  | nil => rfl
  | cons p l ih =>
    exact seq_ok (h p List.mem_cons_self) (ih fun q hq => h q (List.mem_cons_of_mem _ hq))

/-- the text of a function, `[]` if it has none. -/
noncomputable def shownOf (s : St E) (name : List Char) : List Char :=
  open Classical in if h : ∃ o, FuncShown E name (s.funcs.find name) o then h.choose else []

theorem Tidy.shown {s : St E} (h : Tidy s) (name : List Char) : FuncShown E name (s.funcs.find name) (shownOf s name) := by
  have : ∃ o, FuncShown E name (s.funcs.find name) o := by
    cases hf : s.funcs.find name with
    | none => exact ⟨_, .none⟩
    | some fn =>
      obtain ⟨t, ht⟩ := h.body name fn hf
      exact ⟨_, .some ht⟩
  unfold shownOf
  rw [dif_pos this]
  exact this.choose_spec

theorem cmdPrint_all {s : St E} (h : Tidy s) : cmdPrint E [] s = (.ok (), s,
    (s.funcs.names.map (shownOf s)).flatten ++
      (s.constants.names.map fun n => constShown E n (s.constants.find n)).flatten) := by
  unfold cmdPrint
  rw [get_bind]
  have h1 := seqAll_ok (s := s) (s.funcs.map fun p => (printFunc E p.1, shownOf s p.1)) (by
    intro q hq
    obtain ⟨p, hp, rfl⟩ := List.mem_map.1 hq
    obtain ⟨fn, hf⟩ := (Table.find_mem s.funcs p.1).1 (List.mem_map_of_mem hp)
    have := h.shown p.1
    have key := when_ok (E := E) (s := s) (name := p.1) hf (by rw [hf] at this; exact this)
    exact key)
  have h2 := seqAll_ok (s := s) (s.constants.map fun p => (printConstant E p.1, constShown E p.1 (s.constants.find p.1))) (by
    intro q hq
    obtain ⟨p, hp, rfl⟩ := List.mem_map.1 hq
    obtain ⟨v, hf⟩ := (Table.find_mem s.constants p.1).1 (List.mem_map_of_mem hp)
    have key := when_const (E := E) (s := s) (name := p.1) hf
    rw [hf]
    exact key)
  rw [List.map_map, List.map_map] at h1 h2
  have e := seq_ok h1 h2
  simp only [Table.names, List.map_map]
  exact e

end Symxx.Cli

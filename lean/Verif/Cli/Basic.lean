import Verif.Cli.Spec
/-!
# Lemmas on commands
-/
namespace Symxx.Cli
open Symxx.Num Symxx.Sym

variable {E : CEnv} {α β : Type}

namespace Cmd

theorem bind_def (x : Cmd E α) (f : α → Cmd E β) (s : St E) : (x >>= f) s =
    match x s with
    | (.ok a, s, o) => ((f a s).1, (f a s).2.1, o ++ (f a s).2.2)
    | (.throw m, s, o) => (.throw m, s, o)
    | (.exn m, s, o) => (.exn m, s, o)
    | (.ub m, s, o) => (.ub m, s, o)
    | (.fuel, s, o) => (.fuel, s, o) := rfl

theorem pure_def (a : α) (s : St E) : (Pure.pure a : Cmd E α) s = (.ok a, s, []) := rfl

/-- the command leaves the state as it is, whatever happens. -/
def Keeps (x : Cmd E α) : Prop := ∀ s, (x s).2.1 = s

theorem Keeps.bind {x : Cmd E α} {f : α → Cmd E β} (hx : Keeps x) (hf : ∀ a, Keeps (f a)) : Keeps (x >>= f) := by
  intro s
  have h := hx s
  rw [bind_def]
  rcases hx' : x s with ⟨r, s', o⟩
  rw [hx'] at h
  cases h
  cases r with
  | ok a => exact hf a _
  | _ => rfl

theorem keeps_pure (a : α) : Keeps (Pure.pure a : Cmd E α) := fun _ => rfl
theorem keeps_pure' (a : α) : Keeps (Cmd.pure a : Cmd E α) := fun _ => rfl
theorem keeps_lift (r : Res α) : Keeps (lift r : Cmd E α) := fun _ => rfl
theorem keeps_print (t : List Char) : Keeps (print t : Cmd E Unit) := fun _ => rfl
theorem keeps_when {b : Bool} {c : Cmd E Unit} (h : Keeps c) : Keeps (when b c) := by
  unfold when
  split
  · exact h
  · exact keeps_pure' _
theorem keeps_get : Keeps (get : Cmd E (St E)) := fun _ => rfl

end Cmd
open Cmd

theorem keeps_printResult (n : Node) : Keeps (printResult E n) := by
  refine Keeps.bind (keeps_lift _) fun e => Keeps.bind (keeps_lift _) fun t => Keeps.bind (keeps_print _) fun _ =>
    Keeps.bind (keeps_lift _) fun b => ?_
  split
  · exact keeps_print _
  · refine Keeps.bind keeps_get fun s => Keeps.bind (keeps_lift _) fun v => ?_
    split <;> exact keeps_print _

theorem keeps_printFunc (n : List Char) : Keeps (printFunc E n) := by
  refine Keeps.bind keeps_get fun s => ?_
  split
  · exact keeps_lift _
  · exact Keeps.bind (keeps_lift _) fun t => keeps_print _

theorem keeps_printConstant (n : List Char) : Keeps (printConstant E n) := by
  refine Keeps.bind keeps_get fun s => ?_
  split
  · exact keeps_lift _
  · exact keeps_print _

theorem keeps_normalize (b : List Char) : Keeps (cmdNormalize E b) :=
  Keeps.bind (keeps_lift _) fun _ => keeps_printResult _

theorem keeps_tex (b : List Char) : Keeps (cmdTex E b) :=
  Keeps.bind (keeps_lift _) fun _ => Keeps.bind (keeps_lift _) fun _ => keeps_print _

theorem keeps_ntex (b : List Char) : Keeps (cmdNtex E b) :=
  Keeps.bind (keeps_lift _) fun _ => Keeps.bind (keeps_lift _) fun _ => keeps_print _

theorem keeps_factor (b : List Char) : Keeps (cmdFactor E b) := by
  refine Keeps.bind (keeps_lift _) fun n => Keeps.bind (keeps_lift _) fun f => ?_
  split
  · exact keeps_lift _
  · refine Keeps.bind (keeps_lift _) fun r => ?_
    split
    · exact keeps_lift _
    · exact Keeps.bind (keeps_lift _) fun _ => Keeps.bind (keeps_lift _) fun _ => keeps_print _

theorem keeps_seqAll {l : List (Cmd E Unit)} (h : ∀ c ∈ l, Keeps c) : Keeps (seqAll E l) := by
  induction l with
  | nil => exact keeps_pure' _
  | cons c cs ih =>
    exact Keeps.bind (h c List.mem_cons_self) fun _ => ih fun d hd => h d (List.mem_cons_of_mem _ hd)

theorem keeps_print_cmd (b : List Char) : Keeps (cmdPrint E b) := by
  refine Keeps.bind keeps_get fun s => ?_
  split
  · refine Keeps.bind (keeps_seqAll fun c hc => ?_) fun _ => keeps_seqAll fun c hc => ?_
    · obtain ⟨p, -, rfl⟩ := List.mem_map.1 hc; exact keeps_printFunc _
    · obtain ⟨p, -, rfl⟩ := List.mem_map.1 hc; exact keeps_printConstant _
  · exact Keeps.bind (keeps_when (keeps_printFunc _)) fun _ => keeps_when (keeps_printConstant _)

theorem keeps_call (n a : List Char) : Keeps (cmdCall E n a) := by
  refine Keeps.bind (keeps_lift _) fun args => Keeps.bind keeps_get fun s => ?_
  split
  · exact keeps_lift _
  · exact Keeps.bind (keeps_lift _) fun _ => Keeps.bind (keeps_lift _) fun _ => keeps_printResult _

theorem keeps_other (a b : List Char) : Keeps (cmdOther E a b) := by
  unfold cmdOther
  split
  · exact keeps_normalize _
  · split
    · exact keeps_normalize _
    · refine Keeps.bind keeps_get fun s => ?_
      simp only
      split
      · exact keeps_normalize _
      · exact keeps_call _ _

/-- the command words that change the state. -/
def Defining (line : List Char) : Prop := word line = "func".toList ∨ word line = "constant".toList

theorem keeps_dispatch {line : List Char} (h : ¬ Defining line) : Keeps (dispatch E line) := by
  unfold Defining word at h
  unfold dispatch
  simp only
  refine Keeps.bind (keeps_when (keeps_normalize _)) fun _ => Keeps.bind (keeps_when (keeps_tex _)) fun _ => ?_
  · split
    · exact Keeps.bind (keeps_ntex _) fun _ => keeps_pure' _
    · split
      · rename_i hc; exact absurd (Or.inl hc) h
      · split
        · rename_i hc; exact absurd (Or.inr hc) h
        · split
          · exact Keeps.bind (keeps_print_cmd _) fun _ => keeps_pure' _
          · split
            · exact Keeps.bind (keeps_factor _) fun _ => keeps_pure' _
            · split
              · exact Keeps.bind (keeps_print _) fun _ => keeps_pure' _
              · split
                · exact keeps_pure' _
                · exact Keeps.bind (keeps_other _ _) fun _ => keeps_pure' _

theorem dispatch_func {line : List Char} (h : word line = "func".toList) :
    dispatch E line = (do cmdFunc E (line.dropWhile (· ≠ ' ')).tail; Cmd.pure false) := by
  unfold word at h
  unfold dispatch
  simp only [h]
  funext s
  rfl

theorem dispatch_constant {line : List Char} (h : word line = "constant".toList) :
    dispatch E line = (do cmdConstant E (line.dropWhile (· ≠ ' ')).tail; Cmd.pure false) := by
  unfold word at h
  unfold dispatch
  simp only [h]
  funext s
  rfl

/-! ### tables -/

namespace Table

theorem find_set (t : Table α) (k x : List Char) (v : α) : (t.set k v).find x = if x = k then some v else t.find x := by
  induction t with
  | nil => rfl
  | cons p t ih =>
    obtain ⟨k', v'⟩ := p
    unfold set
    split
    · simp only [find]
    · split
      · rename_i h; subst h
        simp only [find]
        split <;> rfl
      · rename_i h1 h2
        simp only [find]
        split
        · rename_i hx; subst hx
          rw [if_neg (fun e => h2 e.symm)]
        · exact ih

end Table
end Symxx.Cli

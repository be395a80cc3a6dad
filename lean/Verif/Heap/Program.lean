import Verif.Heap.Own
/-!
# Client programs: every variable owns its tree
-/
namespace Symxx.Heap
open Symxx Symxx.Num Symxx.Sym

/-- every variable in scope owns its tree, the footprints are disjoint, and everything else alive is in `leak`. -/
structure Rep (s : State) (v : Vals) (foot : Nat → List Nat) (leak : List Nat) : Prop where
  wf : s.mem.WF
  unset : ∀ x, s.var x = none → v x = none ∧ foot x = []
  own : ∀ x p, s.var x = some p → ∃ t, v x = some t ∧ Own s.mem t p (foot x)
  disj : ∀ x y, x ≠ y → ∀ a ∈ foot x, a ∉ foot y
  leaked : ∀ a ∈ leak, s.mem.cell a ≠ none ∧ ∀ x, a ∉ foot x
  nodup : leak.Nodup
  all : ∀ a, s.mem.cell a ≠ none → a ∈ leak ∨ ∃ x, a ∈ foot x

theorem Rep.init : Rep State.init (fun _ => none) (fun _ => []) [] where
  wf a _ := rfl
  unset x _ := ⟨rfl, rfl⟩
  own x p h := by cases h
  disj x y _ a ha := by simp at ha
  leaked a ha := by simp at ha
  nodup := List.nodup_nil
  all a ha := absurd rfl ha

variable {s : State} {v : Vals} {foot : Nat → List Nat} {leak : List Nat}

theorem Rep.none_iff (h : Rep s v foot leak) (x : Nat) : s.var x = none ↔ v x = none := by
  constructor
  · exact fun hx => (h.unset x hx).1
  · intro hx
    cases hv : s.var x with
    | none => rfl
    | some p =>
      obtain ⟨t, ht, -⟩ := h.own x p hv
      rw [ht] at hx
      cases hx

/-- a variable is declared. -/
theorem Rep.declare (h : Rep s v foot leak) {x p : Nat} {t : Node} {sx lk : List Nat} {m' : Mem} (hx : s.var x = none)
    (ho : Own m' t p sx) (hd : (sx ++ lk).Nodup) (hl : ∀ a ∈ lk, m'.cell a ≠ none) (ha : Adds s.mem (sx ++ lk) m') :
    Rep ⟨Function.update s.var x (some p), m'⟩ (Function.update v x (some t)) (Function.update foot x sx) (leak ++ lk) := by
  have flt : ∀ y, ∀ a ∈ foot y, a < s.mem.next := by
    intro y a hay
    cases hy : s.var y with
    | none => rw [(h.unset y hy).2] at hay; simp at hay
    | some q =>
      obtain ⟨t, -, ho⟩ := h.own y q hy
      exact ho.lt h.wf a hay
  have llt : ∀ a ∈ leak, a < s.mem.next := by
    intro a hal
    by_contra hlt
    exact (h.leaked a hal).1 (h.wf a (by omega))
  have hfr := ha.fresh
  simp only [List.mem_append] at hfr
  rw [List.nodup_append] at hd
  obtain ⟨d1, d2, d3⟩ := hd
  have hsame : ∀ a, a < s.mem.next → m'.cell a = s.mem.cell a := fun a hlt => ha.same a fun hm => by
    have := ha.fresh a hm
    omega
  constructor
  · exact ha.wf
  · intro y hy
    by_cases hyx : y = x
    · subst hyx
      simp at hy
    · simp only [Function.update_of_ne hyx] at hy ⊢
      exact h.unset y hy
  · intro y q hy
    by_cases hyx : y = x
    · subst hyx
      simp only [Function.update_self, Option.some.injEq] at hy ⊢
      subst hy
      exact ⟨t, rfl, ho⟩
    · simp only [Function.update_of_ne hyx] at hy ⊢
      obtain ⟨u, hu, ho'⟩ := h.own y q hy
      exact ⟨u, hu, ha.frame h.wf ho'⟩
  · intro y z hyz a hay haz
    by_cases hyx : y = x
    · subst hyx
      rw [Function.update_self] at hay
      rw [Function.update_of_ne (Ne.symm hyz)] at haz
      have := flt z a haz
      have := hfr a (Or.inl hay)
      omega
    · rw [Function.update_of_ne hyx] at hay
      by_cases hzx : z = x
      · subst hzx
        rw [Function.update_self] at haz
        have := flt y a hay
        have := hfr a (Or.inl haz)
        omega
      · rw [Function.update_of_ne hzx] at haz
        exact h.disj y z hyz a hay haz
  · intro a hal
    rw [List.mem_append] at hal
    rcases hal with hal | hal
    · refine ⟨by rw [show (State.mk _ m').mem = m' from rfl, hsame a (llt a hal)]; exact (h.leaked a hal).1, fun y => ?_⟩
      by_cases hyx : y = x
      · subst hyx
        rw [Function.update_self]
        intro hy
        have := hfr a (Or.inl hy)
        have := llt a hal
        omega
      · rw [Function.update_of_ne hyx]
        exact (h.leaked a hal).2 y
    · refine ⟨hl a hal, fun y => ?_⟩
      by_cases hyx : y = x
      · subst hyx
        rw [Function.update_self]
        exact fun hy => d3 a hy a hal rfl
      · rw [Function.update_of_ne hyx]
        intro hy
        have := hfr a (Or.inr hal)
        have := flt y a hy
        omega
  · rw [List.nodup_append]
    refine ⟨h.nodup, d2, ?_⟩
    rintro a hal _ hb rfl
    have := llt a hal
    have := hfr a (Or.inr hb)
    omega
  · intro a hc
    by_cases hs : a ∈ sx ++ lk
    · rw [List.mem_append] at hs
      rcases hs with hs | hs
      · exact Or.inr ⟨x, by rw [Function.update_self]; exact hs⟩
      · exact Or.inl (List.mem_append.2 (Or.inr hs))
    · have hc' : s.mem.cell a ≠ none := by rw [← ha.same a hs]; exact hc
      rcases h.all a hc' with hl | ⟨y, hy⟩
      · exact Or.inl (List.mem_append.2 (Or.inl hl))
      · refine Or.inr ⟨y, ?_⟩
        by_cases hyx : y = x
        · subst hyx
          rw [(h.unset y hx).2] at hy
          simp at hy
        · rw [Function.update_of_ne hyx]
          exact hy

/-- a variable changes. -/
theorem Rep.changed (h : Rep s v foot leak) {x p : Nat} {t' : Node} {sx : List Nat} {m' : Mem} (hx : s.var x = some p)
    (ho : Own m' t' p sx) (hc : Changed s.mem (foot x) sx m') :
    Rep ⟨s.var, m'⟩ (Function.update v x (some t')) (Function.update foot x sx) leak := by
  constructor
  · intro a ha
    have e : m'.next = s.mem.next := hc.next
    have hn : s.mem.cell a = none := h.wf a (by rw [← e]; exact ha)
    have : a ∉ foot x := by
      intro hf
      obtain ⟨t, -, ho⟩ := h.own x p hx
      exact ho.live a hf hn
    rw [show (State.mk s.var m').mem = m' from rfl, hc.outside this, hn]
  · intro y hy
    have hyx : y ≠ x := by
      rintro rfl
      simp only at hy
      rw [hx] at hy
      cases hy
    rw [Function.update_of_ne hyx, Function.update_of_ne hyx]
    exact h.unset y hy
  · intro y q hy
    simp only at hy
    by_cases hyx : y = x
    · subst hyx
      rw [hx] at hy
      cases hy
      exact ⟨t', by simp, by rw [Function.update_self]; exact ho⟩
    · rw [Function.update_of_ne hyx, Function.update_of_ne hyx]
      obtain ⟨u, hu, ho'⟩ := h.own y q hy
      exact ⟨u, hu, ho'.frame fun a ha => hc.outside (h.disj y x hyx a ha)⟩
  · intro y z hyz a hay haz
    by_cases hyx : y = x
    · subst hyx
      rw [Function.update_self] at hay
      rw [Function.update_of_ne (Ne.symm hyz)] at haz
      exact h.disj y z hyz a (hc.sub a hay) haz
    · rw [Function.update_of_ne hyx] at hay
      by_cases hzx : z = x
      · subst hzx
        rw [Function.update_self] at haz
        exact h.disj y z hyz a hay (hc.sub a haz)
      · rw [Function.update_of_ne hzx] at haz
        exact h.disj y z hyz a hay haz
  · intro a hal
    obtain ⟨h1, h2⟩ := h.leaked a hal
    refine ⟨by rw [show (State.mk s.var m').mem = m' from rfl, hc.outside (h2 x)]; exact h1, fun y => ?_⟩
    by_cases hyx : y = x
    · subst hyx
      rw [Function.update_self]
      exact fun hy => h2 y (hc.sub a hy)
    · rw [Function.update_of_ne hyx]
      exact h2 y
  · exact h.nodup
  · intro a ha
    by_cases hs : a ∈ sx
    · exact Or.inr ⟨x, by rw [Function.update_self]; exact hs⟩
    · have e : m'.cell a = _ := hc.same a hs
      by_cases hf : a ∈ foot x
      · rw [if_pos hf] at e
        exact absurd e ha
      · rw [if_neg hf] at e
        have ha' : s.mem.cell a ≠ none := by rw [← e]; exact ha
        rcases h.all a ha' with hl | ⟨y, hy⟩
        · exact Or.inl hl
        · refine Or.inr ⟨y, ?_⟩
          have hyx : y ≠ x := by
            rintro rfl
            exact hf hy
          rw [Function.update_of_ne hyx]
          exact hy

/-- a variable goes out of scope. -/
theorem Rep.destroy (h : Rep s v foot leak) {x : Nat} :
    Rep ⟨Function.update s.var x none, s.mem.erase (foot x)⟩ (Function.update v x none) (Function.update foot x []) leak := by
  constructor
  · intro a ha
    have : s.mem.cell a = none := h.wf a ha
    simp [Mem.erase, this]
  · intro y hy
    by_cases hyx : y = x
    · subst hyx
      simp
    · simp only [Function.update_of_ne hyx] at hy ⊢
      exact h.unset y hy
  · intro y q hy
    by_cases hyx : y = x
    · subst hyx
      simp at hy
    · simp only [Function.update_of_ne hyx] at hy ⊢
      obtain ⟨u, hu, ho⟩ := h.own y q hy
      exact ⟨u, hu, ho.frame fun a ha => by simp [Mem.erase, h.disj y x hyx a ha]⟩
  · intro y z hyz a hay haz
    by_cases hyx : y = x
    · subst hyx
      simp at hay
    · rw [Function.update_of_ne hyx] at hay
      by_cases hzx : z = x
      · subst hzx
        simp at haz
      · rw [Function.update_of_ne hzx] at haz
        exact h.disj y z hyz a hay haz
  · intro a hal
    obtain ⟨h1, h2⟩ := h.leaked a hal
    refine ⟨by simp [Mem.erase, h2 x, h1], fun y => ?_⟩
    by_cases hyx : y = x
    · subst hyx
      simp
    · rw [Function.update_of_ne hyx]
      exact h2 y
  · exact h.nodup
  · intro a ha
    have hf : a ∉ foot x := by
      intro hf
      apply ha
      simp [Mem.erase, hf]
    have ha' : s.mem.cell a ≠ none := by
      intro hn
      apply ha
      simp [Mem.erase, hn]
    rcases h.all a ha' with hl | ⟨y, hy⟩
    · exact Or.inl hl
    · refine Or.inr ⟨y, ?_⟩
      have hyx : y ≠ x := by
        rintro rfl
        exact hf hy
      rw [Function.update_of_ne hyx]
      exact hy

variable {env : FEnv} {dec : List Char → Res Rational}

/-- the number of nodes a statement leaks: those of the tree it parses. -/
def leakOf (env : FEnv) (dec : List Char → Res Rational) (v : Vals) : Stmt → Nat
  | .parse x text =>
    match v x, Node.ofText env dec text with
    | none, .ok t => size t
    | _, _ => 0
  | _ => 0

theorem onVar_method (h : Rep s v foot leak) {x p : Nat} {t : Node} (hx : s.var x = some p) {f : Node → Res Node}
    {c : Nat → M Unit} (hm : Method s.mem p (foot x) (f t) (c p)) :
    ∃ r s' v' foot', onVar s x (fun p => do c p; M.pure []) = some (r, s') ∧ Changes v x (f t) r v' ∧ Rep s' v' foot' leak := by
  obtain ⟨r, m', t', s', h1, h2, h3, h4, h5⟩ := hm
  have e : (do c p; M.pure [] : M (List Char)) s.mem = some (outcome r, m') := by
    cases r with
    | ok u => exact bind_ok' h1
    | throw e => exact bind_throw' h1
    | exn e => exact bind_exn' h1
    | ub e => exact bind_ub' h1
    | fuel => exact bind_fuel' h1
  refine ⟨outcome r, ⟨s.var, m'⟩, Function.update v x (some t'), Function.update foot x s', ?_, ⟨h2, t', rfl, h5⟩,
    h.changed hx h3 h4⟩
  unfold onVar
  rw [hx]
  dsimp only
  rw [e]

theorem exec_rep (h : Rep s v foot leak) {i : Stmt} (hi : Allowed v i) :
    ∃ r s' v' foot' leak', exec env dec s i = some (r, s') ∧ Step env dec v i r v' ∧ Rep s' v' foot' leak' ∧
      leak'.length = leak.length + leakOf env dec v i := by
  cases i with
  | parse x text =>
    simp only [exec, Step, leakOf, declare]
    cases hx : s.var x with
    | some p =>
      obtain ⟨t, ht, -⟩ := h.own x p hx
      rw [ht]
      exact ⟨_, s, v, foot, leak, rfl, ⟨rfl, rfl⟩, h, rfl⟩
    | none =>
      rw [(h.unset x hx).1]
      dsimp only
      cases ht : Node.ofText env dec text with
      | ok t =>
        rw [bind_ok' (x := M.lift (.ok t)) rfl]
        obtain ⟨p, sx, lk, m', e, o, ll, nd, lv, ad⟩ := parse_own h.wf (le_refl (size t))
        rw [e]
        exact ⟨_, _, _, _, _, rfl, ⟨rfl, rfl⟩, h.declare hx o nd lv ad, by rw [List.length_append, ll]⟩
      | throw e => rw [bind_throw' (x := M.lift (.throw e : Res Node)) rfl]; exact ⟨_, _, v, foot, leak, rfl, ⟨rfl, rfl⟩, h, rfl⟩
      | exn e => rw [bind_exn' (x := M.lift (.exn e : Res Node)) rfl]; exact ⟨_, _, v, foot, leak, rfl, ⟨rfl, rfl⟩, h, rfl⟩
      | ub e => rw [bind_ub' (x := M.lift (.ub e : Res Node)) rfl]; exact ⟨_, _, v, foot, leak, rfl, ⟨rfl, rfl⟩, h, rfl⟩
      | fuel => rw [bind_fuel' (x := M.lift (.fuel : Res Node)) rfl]; exact ⟨_, _, v, foot, leak, rfl, ⟨rfl, rfl⟩, h, rfl⟩
  | leaf x f =>
    simp only [exec, Step, leakOf, declare]
    cases hx : s.var x with
    | some p =>
      obtain ⟨t, ht, -⟩ := h.own x p hx
      rw [ht]
      exact ⟨_, s, v, foot, leak, rfl, ⟨rfl, rfl⟩, h, rfl⟩
    | none =>
      rw [(h.unset x hx).1]
      obtain ⟨m', e, c, ad⟩ := alloc_adds h.wf (.frac f)
      dsimp only
      rw [e]
      exact ⟨_, _, _, _, leak, rfl, ⟨rfl, rfl⟩, by
        have := h.declare (t := .frac f) (lk := []) hx ⟨c, rfl⟩ (by simp) (by simp) (by simpa using ad)
        simpa using this, rfl⟩
  | copy x y =>
    simp only [exec, Step, leakOf]
    cases hy : s.var y with
    | none =>
      rw [(h.unset y hy).1]
      refine ⟨_, s, v, foot, leak, rfl, ?_, h, rfl⟩
      cases v x <;> exact ⟨rfl, rfl⟩
    | some q =>
      obtain ⟨t, ht, ho⟩ := h.own y q hy
      rw [ht]
      simp only [declare]
      cases hx : s.var x with
      | some p =>
        obtain ⟨u, hu, -⟩ := h.own x p hx
        rw [hu]
        exact ⟨_, s, v, foot, leak, rfl, ⟨rfl, rfl⟩, h, rfl⟩
      | none =>
        rw [(h.unset x hx).1]
        obtain ⟨p, sx, m', e, o, ad⟩ := copyNode_own h.wf ho (n := s.mem.next + 1) (by have := ho.size_le h.wf; omega)
        dsimp only
        rw [e]
        exact ⟨_, _, _, _, leak, rfl, ⟨rfl, rfl⟩, by
          have := h.declare (lk := []) hx o (by simpa using o.nodup) (by simp) (by simpa using ad)
          simpa using this, rfl⟩
  | assign x y => 
    have hi' : x ≠ y → ∀ t u, v x = some t → v y = some u → isOp t = true → isOp u = true → False := hi
    simp only [exec, Step, leakOf]
    cases hy : s.var y with
    | none =>
      rw [(h.unset y hy).1]
      refine ⟨_, s, v, foot, leak, rfl, ?_, h, rfl⟩
      cases v x <;> exact ⟨rfl, rfl⟩
    | some q =>
      obtain ⟨u, hu, ho⟩ := h.own y q hy
      rw [hu] at hi'
      simp only [onVar]
      cases hx : s.var x with
      | none =>
        rw [(h.unset x hx).1]
        exact ⟨_, s, v, foot, leak, rfl, ⟨rfl, rfl⟩, h, rfl⟩
      | some p =>
        obtain ⟨t, ht, ho'⟩ := h.own x p hx
        rw [ht] at hi'
        rw [ht, hu]
        dsimp only
        have st := ho'.size_le h.wf
        have su := ho.size_le h.wf
        cases u with
        | frac f =>
          obtain ⟨m', e, o, ch⟩ := becomeFrac_own (f := f) ho' (n := s.mem.next + 1) (by omega)
          rw [bind_ok' (x := assign _ _ _) (by rw [assign, bind_ok' (get_ok ho.1)]; exact e)]
          exact ⟨_, _, _, _, leak, rfl, ⟨rfl, rfl⟩, h.changed hx o ch, rfl⟩
        | op c l r =>
          have hoo := ho
          obtain ⟨a, b, sa, sb, hc, h1, h2, hf, hd⟩ := ho
          cases t with
          | frac g =>
            obtain ⟨hg, hfx⟩ := ho'
            simp only [size] at su
            obtain ⟨a', sa', m1, e1, o1, d1⟩ := copyNode_own h.wf h1 (n := s.mem.next + 1) (by omega)
            obtain ⟨b', sb', m2, e2, o2, d2⟩ := copyNode_own d1.wf (d1.frame h.wf h2) (n := s.mem.next + 1) (by omega)
            have hp : p < s.mem.next := by
              by_contra hlt
              rw [h.wf p (by omega)] at hg
              cases hg
            have n1 := d1.next
            have n2 := d2.next
            have hpa : p ∉ sa' := fun hm => by have := d1.fresh p hm; omega
            have hpb : p ∉ sb' := fun hm => by have := d2.fresh p hm; omega
            have hg' : m2.cell p = some (.frac g) := by rw [d2.same p hpb, d1.same p hpa, hg]
            have e3 := set_ok (c' := .op c a' b') hg'
            have hab : ∀ x ∈ sa', x ∉ sb' := fun x hx hy => by
              have := o1.lt d1.wf x hx
              have := d2.fresh x hy
              omega
            rw [bind_ok' (x := assign _ _ _) (by
              rw [assign, bind_ok' (get_ok hc)]
              dsimp only
              rw [bind_ok' (get_ok hg)]
              dsimp only
              rw [bind_ok' e1, bind_ok' e2]
              exact e3)]
            refine ⟨_, _, _, Function.update foot x (p :: (sa' ++ sb')), leak, rfl, ⟨rfl, rfl⟩, ?_, rfl⟩
            have ad := d1.trans d2
            have flt : ∀ z, ∀ a ∈ foot z, a < s.mem.next := by
              intro z a haz
              cases hz : s.var z with
              | none => rw [(h.unset z hz).2] at haz; simp at haz
              | some q =>
                obtain ⟨t, -, ho⟩ := h.own z q hz
                exact ho.lt h.wf a haz
            have nfr : ∀ a ∈ sa' ++ sb', s.mem.next ≤ a := ad.fresh
            have same : ∀ a, a < s.mem.next → a ≠ p → Function.update m2.cell p (some (.op c a' b')) a = s.mem.cell a := by
              intro a hlt hne
              rw [Function.update_of_ne hne, ad.same a fun hm => by have := nfr a hm; omega]
            have nopx : ∀ z, z ≠ x → p ∉ foot z := fun z hz hpz => h.disj x z (Ne.symm hz) p (by rw [hfx]; simp) hpz
            have hO : Own ⟨m2.next, Function.update m2.cell p (some (.op c a' b'))⟩ (.op c l r) p (p :: (sa' ++ sb')) := by
              refine ⟨a', b', sa', sb', by simp, (d2.frame d1.wf o1).frame fun z hz => ?_, o2.frame fun z hz => ?_, rfl, ?_⟩
              · exact Function.update_of_ne (by rintro rfl; exact hpa hz) _ _
              · exact Function.update_of_ne (by rintro rfl; exact hpb hz) _ _
              · rw [List.nodup_cons, List.nodup_append, List.mem_append, not_or]
                refine ⟨⟨hpa, hpb⟩, o1.nodup, o2.nodup, ?_⟩
                rintro z hz _ hz' rfl
                exact hab z hz hz'
            constructor
            · intro z hz
              have hz' : m2.next ≤ z := hz
              show Function.update m2.cell p _ z = none
              rw [Function.update_of_ne (by omega)]
              exact d2.wf z hz'
            · intro z hz
              have hzx : z ≠ x := by
                rintro rfl
                simp only at hz
                rw [hx] at hz
                cases hz
              rw [Function.update_of_ne hzx, Function.update_of_ne hzx]
              exact h.unset z hz
            · intro z q hz
              simp only at hz
              by_cases hzx : z = x
              · subst hzx
                rw [hx] at hz
                cases hz
                exact ⟨.op c l r, by simp, by rw [Function.update_self]; exact hO⟩
              · rw [Function.update_of_ne hzx, Function.update_of_ne hzx]
                obtain ⟨w, hw, how⟩ := h.own z q hz
                exact ⟨w, hw, how.frame fun a ha => same a (flt z a ha) (by rintro rfl; exact nopx z hzx ha)⟩
            · intro y z hyz a hay haz
              by_cases hyx : y = x
              · subst hyx
                rw [Function.update_self] at hay
                rw [Function.update_of_ne (Ne.symm hyz)] at haz
                rcases List.mem_cons.1 hay with rfl | hay
                · exact nopx z (Ne.symm hyz) haz
                · have := nfr a hay
                  have := flt z a haz
                  omega
              · rw [Function.update_of_ne hyx] at hay
                by_cases hzx : z = x
                · subst hzx
                  rw [Function.update_self] at haz
                  rcases List.mem_cons.1 haz with rfl | haz
                  · exact nopx y hyx hay
                  · have := nfr a haz
                    have := flt y a hay
                    omega
                · rw [Function.update_of_ne hzx] at haz
                  exact h.disj y z hyz a hay haz
            · intro a hal
              obtain ⟨g1, g2⟩ := h.leaked a hal
              have hlt : a < s.mem.next := by
                by_contra hlt
                exact g1 (h.wf a (by omega))
              have hne : a ≠ p := by
                rintro rfl
                exact g2 x (by rw [hfx]; simp)
              refine ⟨by rw [show (State.mk s.var ⟨m2.next, _⟩).mem.cell a = _ from same a hlt hne]; exact g1, fun z => ?_⟩
              by_cases hzx : z = x
              · subst hzx
                rw [Function.update_self]
                intro hz
                rcases List.mem_cons.1 hz with rfl | hz
                · exact hne rfl
                · have := nfr a hz
                  omega
              · rw [Function.update_of_ne hzx]
                exact g2 z
            · exact h.nodup
            · intro a ha
              by_cases hs : a ∈ p :: (sa' ++ sb')
              · exact Or.inr ⟨x, by rw [Function.update_self]; exact hs⟩
              · rw [List.mem_cons, not_or] at hs
                have ha' : s.mem.cell a ≠ none := by
                  rw [← ad.same a hs.2]
                  have : Function.update m2.cell p (some (.op c a' b')) a ≠ none := ha
                  rwa [Function.update_of_ne hs.1] at this
                rcases h.all a ha' with hl | ⟨z, hz⟩
                · exact Or.inl hl
                · refine Or.inr ⟨z, ?_⟩
                  have hzx : z ≠ x := by
                    rintro rfl
                    rw [hfx, List.mem_singleton] at hz
                    exact hs.1 hz
                  rw [Function.update_of_ne hzx]
                  exact hz
          | op c' l' r' =>
            have hxy : x = y := by
              by_contra hne
              exact hi' hne _ _ rfl rfl rfl rfl
            subst hxy
            rw [hx] at hy
            cases hy
            have e := set_ok (c' := .op c a b) hc
            have hid : Function.update s.mem.cell q (some (.op c a b)) = s.mem.cell := by
              rw [← hc, Function.update_eq_self]
            rw [hid] at e
            rw [bind_ok' (x := assign _ _ _) (by
              rw [assign, bind_ok' (get_ok hc)]
              dsimp only
              rw [bind_ok' (get_ok hc)]
              exact e)]
            rw [ht] at hu
            cases hu
            refine ⟨_, _, _, foot, leak, rfl, ⟨rfl, rfl⟩, ?_, rfl⟩
            rw [← ht, Function.update_eq_self]
            exact h
  | normalize x =>
    simp only [exec, Step, leakOf]
    cases hx : s.var x with
    | none =>
      rw [(h.unset x hx).1]
      exact ⟨_, s, v, foot, leak, by unfold onVar; rw [hx], ⟨rfl, rfl⟩, h, rfl⟩
    | some p =>
      obtain ⟨t, ht, ho⟩ := h.own x p hx
      rw [ht]
      obtain ⟨r, s', v', foot', h1, h2, h3⟩ := onVar_method h hx (f := Node.normalize env) (c := normalize env (s.mem.next + 1))
        (normalize_own ho (by have := ho.size_le h.wf; omega))
      exact ⟨r, s', v', foot', leak, h1, h2, h3, rfl⟩
  | substitute x e =>
    simp only [exec, Step, leakOf]
    cases hx : s.var x with
    | none =>
      rw [(h.unset x hx).1]
      exact ⟨_, s, v, foot, leak, by unfold onVar; rw [hx], ⟨rfl, rfl⟩, h, rfl⟩
    | some p =>
      obtain ⟨t, ht, ho⟩ := h.own x p hx
      rw [ht]
      obtain ⟨r, s', v', foot', h1, h2, h3⟩ := onVar_method h hx (f := Node.substitute env e)
        (c := substitute env e (s.mem.next + 1)) (substitute_own ho (by have := ho.size_le h.wf; omega))
      exact ⟨r, s', v', foot', leak, h1, h2, h3, rfl⟩
  | print x =>
    simp only [exec, Step, leakOf, onVar]
    cases hx : s.var x with
    | none =>
      rw [(h.unset x hx).1]
      exact ⟨_, s, v, foot, leak, rfl, ⟨rfl, rfl⟩, h, rfl⟩
    | some p =>
      obtain ⟨t, ht, ho⟩ := h.own x p hx
      rw [ht]
      dsimp only
      rw [toStr_own ho (by have := ho.size_le h.wf; omega)]
      exact ⟨_, _, v, foot, leak, rfl, ⟨rfl, rfl⟩, h, rfl⟩
  | destroy x =>
    simp only [exec, Step, leakOf]
    cases hx : s.var x with
    | none =>
      refine ⟨_, s, v, foot, leak, rfl, ⟨rfl, ?_⟩, h, rfl⟩
      rw [← (h.unset x hx).1, Function.update_eq_self]
    | some p =>
      obtain ⟨t, ht, ho⟩ := h.own x p hx
      dsimp only
      rw [deleteNode_own ho (by have := ho.size_le h.wf; omega)]
      exact ⟨_, _, _, _, leak, rfl, ⟨rfl, rfl⟩, h.destroy, rfl⟩

/-- the number of nodes a program leaks along an execution on trees. -/
inductive Leaks (env : FEnv) (dec : List Char → Res Rational) : Vals → List Stmt → List (Res (List Char)) → Vals → Nat → Prop where
  | nil {v : Vals} : Leaks env dec v [] [] v 0
  | stop {v : Vals} {i : Stmt} {is : List Stmt} {r : Res (List Char)} {v' : Vals} : Step env dec v i r v' → Survives r = false → Leaks env dec v (i :: is) [r] v' (leakOf env dec v i)
  | cons {v : Vals} {i : Stmt} {is : List Stmt} {r : Res (List Char)} {rs : List (Res (List Char))} {v₁ v' : Vals} {n : Nat} : Step env dec v i r v₁ → Survives r = true → Leaks env dec v₁ is rs v' n →
      Leaks env dec v (i :: is) (r :: rs) v' (leakOf env dec v i + n)

theorem Leaks.steps {v v' : Vals} {is : List Stmt} {rs : List (Res (List Char))} {n : Nat} (h : Leaks env dec v is rs v' n) :
    Steps env dec v is rs v' := by
  induction h with
  | nil => exact ⟨rfl, rfl⟩
  | stop h hs => exact ⟨_, _, h, by rw [hs]; exact ⟨rfl, rfl⟩⟩
  | cons h hs _ ih => exact ⟨_, _, h, by rw [hs]; exact ⟨_, rfl, ih⟩⟩

theorem run_rep {is : List Stmt} (h : Rep s v foot leak) (hi : AllAllowed env dec v is) :
    ∃ rs s' v' foot' leak' n, run env dec s is = some (rs, s') ∧ Leaks env dec v is rs v' n ∧ Rep s' v' foot' leak' ∧
      leak'.length = leak.length + n := by
  induction is generalizing s v foot leak with
  | nil => exact ⟨[], s, v, foot, leak, 0, rfl, .nil, h, rfl⟩
  | cons i is ih =>
    obtain ⟨r, s₁, v₁, f₁, l₁, e, st, h₁, hl⟩ := exec_rep (env := env) (dec := dec) h hi.1
    cases hs : Survives r with
    | false =>
      refine ⟨[r], s₁, v₁, f₁, l₁, _, ?_, .stop st hs, h₁, hl⟩
      rw [run, e]
      simp [hs]
    | true =>
      obtain ⟨rs, s', v', f', l', n, e', hL, h', hl'⟩ := ih h₁ (hi.2 r v₁ st hs)
      refine ⟨r :: rs, s', v', f', l', _, ?_, .cons st hs hL, h', by rw [hl', hl]; omega⟩
      rw [run, e]
      simp [hs, e']

end Symxx.Heap

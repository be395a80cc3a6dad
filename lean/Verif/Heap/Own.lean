import Verif.Heap.Spec
import Mathlib.Data.List.Nodup
import Mathlib.Data.List.Range
import Mathlib.Data.List.Perm.Subperm
/-!
# Ownership: every node owns its tree

`Own m t p s`: at address `p` there is the tree `t`, its nodes are exactly the (distinct) addresses `s`.
-/
namespace Symxx.Heap
open Symxx Symxx.Num Symxx.Sym

/-- the tree at an address, with its footprint. -/
def Own (m : Mem) : Node → Nat → List Nat → Prop
  | .frac f, p, s => m.cell p = some (.frac f) ∧ s = [p]
  | .op c l r, p, s => ∃ a b sa sb, m.cell p = some (.op c a b) ∧ Own m l a sa ∧ Own m r b sb ∧ s = p :: (sa ++ sb) ∧ s.Nodup

theorem Own.nodup {m : Mem} {t : Node} {p : Nat} {s : List Nat} (h : Own m t p s) : s.Nodup := by
  cases t with
  | frac f => obtain ⟨-, rfl⟩ := h; simp
  | op c l r => obtain ⟨a, b, sa, sb, -, -, -, -, h⟩ := h; exact h

theorem Own.head {m : Mem} {t : Node} {p : Nat} {s : List Nat} (h : Own m t p s) : p ∈ s := by
  cases t with
  | frac f => obtain ⟨-, rfl⟩ := h; simp
  | op c l r => obtain ⟨a, b, sa, sb, -, -, -, rfl, -⟩ := h; simp

theorem Own.length {m : Mem} {t : Node} {p : Nat} {s : List Nat} (h : Own m t p s) : s.length = size t := by
  induction t generalizing p s with
  | frac f => obtain ⟨-, rfl⟩ := h; rfl
  | op c l r ihl ihr =>
    obtain ⟨a, b, sa, sb, -, h1, h2, rfl, -⟩ := h
    simp [size, ihl h1, ihr h2]

theorem Own.live {m : Mem} {t : Node} {p : Nat} {s : List Nat} (h : Own m t p s) : ∀ a ∈ s, m.cell a ≠ none := by
  induction t generalizing p s with
  | frac f => obtain ⟨h, rfl⟩ := h; simp [h]
  | op c l r ihl ihr =>
    obtain ⟨a, b, sa, sb, h, h1, h2, rfl, -⟩ := h
    intro x hx
    rw [List.mem_cons, List.mem_append] at hx
    rcases hx with rfl | hx | hx
    · simp [h]
    · exact ihl h1 x hx
    · exact ihr h2 x hx

theorem Own.frame {m m' : Mem} {t : Node} {p : Nat} {s : List Nat} (h : Own m t p s) (hf : ∀ a ∈ s, m'.cell a = m.cell a) :
    Own m' t p s := by
  induction t generalizing p s with
  | frac f => obtain ⟨h, rfl⟩ := h; exact ⟨by rw [hf p (by simp), h], rfl⟩
  | op c l r ihl ihr =>
    obtain ⟨a, b, sa, sb, h, h1, h2, rfl, hn⟩ := h
    exact ⟨a, b, sa, sb, by rw [hf p (by simp), h], ihl h1 fun x hx => hf x (by simp [hx]),
      ihr h2 fun x hx => hf x (by simp [hx]), rfl, hn⟩

/-- no object lives beyond the fresh addresses. -/
def Mem.WF (m : Mem) : Prop := ∀ a, m.next ≤ a → m.cell a = none

theorem Own.lt {m : Mem} {t : Node} {p : Nat} {s : List Nat} (h : Own m t p s) (hm : m.WF) : ∀ a ∈ s, a < m.next := by
  intro a ha
  by_contra hl
  exact h.live a ha (hm a (by omega))

theorem Own.size_le {m : Mem} {t : Node} {p : Nat} {s : List Nat} (h : Own m t p s) (hm : m.WF) : size t ≤ m.next := by
  rw [← h.length]
  have := (List.subperm_of_subset (l₂ := List.range m.next) h.nodup fun a ha => List.mem_range.2 (h.lt hm a ha)).length_le
  simpa using this

/-! ### the monad -/

section
variable {α β : Type} {x : M α} {f : α → M β} {m m' : Mem}
theorem bind_ok' {a : α} (h : x m = some (.ok a, m')) : (x >>= f) m = f a m' := by
  show M.bind x f m = _
  simp [M.bind, h]
theorem bind_throw' {e} (h : x m = some (.throw e, m')) : (x >>= f) m = some (.throw e, m') := by
  show M.bind x f m = _
  simp [M.bind, h]
theorem bind_exn' {e} (h : x m = some (.exn e, m')) : (x >>= f) m = some (.exn e, m') := by
  show M.bind x f m = _
  simp [M.bind, h]
theorem bind_ub' {e} (h : x m = some (.ub e, m')) : (x >>= f) m = some (.ub e, m') := by
  show M.bind x f m = _
  simp [M.bind, h]
theorem bind_fuel' (h : x m = some (.fuel, m')) : (x >>= f) m = some (.fuel, m') := by
  show M.bind x f m = _
  simp [M.bind, h]
theorem bind_none' (h : x m = none) : (x >>= f) m = none := by
  show M.bind x f m = _
  simp [M.bind, h]

/-- sequencing with a computation that leaves the memory alone and computes a `Res`. -/
theorem bind_pure {r : Res α} {g : α → Res β} (h : x m = some (r, m)) (hf : ∀ a, r = .ok a → f a m = some (g a, m)) :
    (x >>= f) m = some (r >>= g, m) := by
  cases r with
  | ok a => rw [bind_ok' h, hf a rfl]; rfl
  | throw e => rw [bind_throw' h]; rfl
  | exn e => rw [bind_exn' h]; rfl
  | ub e => rw [bind_ub' h]; rfl
  | fuel => rw [bind_fuel' h]; rfl
end

theorem get_ok {m : Mem} {p : Nat} {c : Cell} (h : m.cell p = some c) : get p m = some (.ok c, m) := by
  simp [get, h]
theorem set_ok {m : Mem} {p : Nat} {c c' : Cell} (h : m.cell p = some c) :
    set p c' m = some (.ok (), ⟨m.next, Function.update m.cell p (some c')⟩) := by
  simp [set, h]
theorem free_ok {m : Mem} {p : Nat} {c : Cell} (h : m.cell p = some c) :
    free p m = some (.ok (), ⟨m.next, Function.update m.cell p none⟩) := by
  simp [free, h]

variable {env : FEnv}

/-! ### reading -/

theorem tryEval_own {m : Mem} {t : Node} {p : Nat} {s : List Nat} {n : Nat} (h : Own m t p s) (hn : size t ≤ n) :
    tryEval env n p m = some (Node.tryEval env t, m) := by
  induction t generalizing p s n with
  | frac f =>
    obtain ⟨h, -⟩ := h
    cases n with
    | zero => simp [size] at hn
    | succ n => rw [tryEval, bind_ok' (get_ok h)]; rfl
  | op c l r ihl ihr =>
    obtain ⟨a, b, sa, sb, h, h1, h2, -, -⟩ := h
    cases n with
    | zero => simp [size] at hn
    | succ n =>
      simp only [size] at hn
      rw [tryEval, bind_ok' (get_ok h)]
      dsimp only
      rw [Node.tryEval]
      refine bind_pure (ihl h1 (by omega)) fun lv _ => ?_
      refine bind_pure (ihr h2 (by omega)) fun rv _ => ?_
      cases lv <;> cases rv <;> rfl

theorem withParenL_own {m : Mem} {t : Node} {p : Nat} {s : List Nat} {c : Char} (h : Own m t p s) :
    withParenL env.toEnv c p m = some (Node.withParenL env.toEnv c t, m) := by
  cases t with
  | frac f => rw [withParenL, bind_ok' (get_ok h.1)]; rfl
  | op c l r => obtain ⟨a, b, sa, sb, h, -⟩ := h; rw [withParenL, bind_ok' (get_ok h)]; rfl

theorem withParenR_own {m : Mem} {t : Node} {p : Nat} {s : List Nat} {c : Char} (h : Own m t p s) :
    withParenR env.toEnv c p m = some (Node.withParenR env.toEnv c t, m) := by
  cases t with
  | frac f => rw [withParenR, bind_ok' (get_ok h.1)]; rfl
  | op c l r => obtain ⟨a, b, sa, sb, h, -⟩ := h; rw [withParenR, bind_ok' (get_ok h)]; rfl

theorem toStr_own {m : Mem} {t : Node} {p : Nat} {s : List Nat} {n : Nat} (h : Own m t p s) (hn : size t ≤ n) :
    toStr env.toEnv n p m = some (Node.toStr env.toEnv t, m) := by
  induction t generalizing p s n with
  | frac f =>
    obtain ⟨h, -⟩ := h
    cases n with
    | zero => simp [size] at hn
    | succ n => rw [toStr, bind_ok' (get_ok h)]; rfl
  | op c l r ihl ihr =>
    obtain ⟨a, b, sa, sb, h, h1, h2, -, -⟩ := h
    cases n with
    | zero => simp [size] at hn
    | succ n =>
      simp only [size] at hn
      rw [toStr, bind_ok' (get_ok h)]
      dsimp only
      rw [Node.toStr]
      refine bind_pure (withParenL_own h1) fun pl _ => ?_
      refine bind_pure (ihl h1 (by omega)) fun a _ => ?_
      refine bind_pure (withParenR_own h2) fun pr _ => ?_
      exact bind_pure (ihr h2 (by omega)) fun b _ => rfl

/-! ### deleting -/

/-- the memory without the objects `s`. -/
def Mem.erase (m : Mem) (s : List Nat) : Mem := ⟨m.next, fun a => if a ∈ s then none else m.cell a⟩

theorem deleteNode_own {m : Mem} {t : Node} {p : Nat} {s : List Nat} {n : Nat} (h : Own m t p s) (hn : size t ≤ n) :
    deleteNode n p m = some (.ok (), m.erase s) := by
  induction t generalizing m p s n with
  | frac f =>
    obtain ⟨h, rfl⟩ := h
    cases n with
    | zero => simp [size] at hn
    | succ n =>
      rw [deleteNode, bind_ok' (get_ok h)]
      dsimp only
      rw [free_ok h, Mem.erase]
      congr 3
      funext a
      by_cases ha : a = p <;> simp [ha]
  | op c l r ihl ihr =>
    obtain ⟨a, b, sa, sb, h, h1, h2, rfl, hd⟩ := h
    cases n with
    | zero => simp [size] at hn
    | succ n =>
      simp only [size] at hn
      rw [List.nodup_cons, List.nodup_append, List.mem_append, not_or] at hd
      obtain ⟨⟨hpa, hpb⟩, -, -, hab⟩ := hd
      rw [deleteNode, bind_ok' (get_ok h)]
      dsimp only
      rw [bind_ok' (ihl h1 (by omega))]
      have h2' : Own (m.erase sa) r b sb := h2.frame fun x hx => by
        have : x ∉ sa := fun hx' => hab x hx' x hx rfl
        simp [Mem.erase, this]
      rw [bind_ok' (ihr h2' (by omega))]
      rw [free_ok (c := .op c a b) (by simp [Mem.erase, hpa, hpb, h]), Mem.erase]
      simp only [Mem.erase]
      congr 3
      funext x
      by_cases hx : x = p
      · simp [hx]
      · by_cases hxa : x ∈ sa <;> by_cases hxb : x ∈ sb <;> simp [hx, hxa, hxb]

/-! ### copying -/

/-- `m'` is `m` with the new objects `s'`. -/
structure Adds (m : Mem) (s' : List Nat) (m' : Mem) : Prop where
  wf : m'.WF
  next : m.next ≤ m'.next
  fresh : ∀ a ∈ s', m.next ≤ a
  same : ∀ a, a ∉ s' → m'.cell a = m.cell a

theorem Adds.refl {m : Mem} (h : m.WF) : Adds m [] m := ⟨h, le_refl _, by simp, fun _ _ => rfl⟩

theorem Adds.trans {m m' m'' : Mem} {s s' : List Nat} (h : Adds m s m') (h' : Adds m' s' m'') : Adds m (s ++ s') m'' where
  wf := h'.wf
  next := le_trans h.next h'.next
  fresh a ha := by
    rw [List.mem_append] at ha
    rcases ha with ha | ha
    · exact h.fresh a ha
    · exact le_trans h.next (h'.fresh a ha)
  same a ha := by
    rw [List.mem_append, not_or] at ha
    rw [h'.same a ha.2, h.same a ha.1]

theorem Adds.frame {m m' : Mem} {s s' : List Nat} {t : Node} {p : Nat} (h : Adds m s' m') (hm : m.WF) (ho : Own m t p s) :
    Own m' t p s := ho.frame fun a ha => h.same a fun hs => by
  have := h.fresh a hs
  have := ho.lt hm a ha
  omega

theorem alloc_adds {m : Mem} (hm : m.WF) (c : Cell) :
    ∃ m', alloc c m = some (.ok m.next, m') ∧ m'.cell m.next = some c ∧ Adds m [m.next] m' := by
  refine ⟨_, rfl, by simp, ⟨?_, by simp, by simp, ?_⟩⟩
  · intro a ha
    simp only at ha
    simp only
    rw [Function.update_of_ne (by omega)]
    exact hm a (by omega)
  · intro a ha
    simp only [List.mem_singleton] at ha
    simp only
    rw [Function.update_of_ne ha]

theorem copyNode_own {m : Mem} {t : Node} {p : Nat} {s : List Nat} {n : Nat} (hm : m.WF) (h : Own m t p s) (hn : size t ≤ n) :
    ∃ p' s' m', copyNode n p m = some (.ok p', m') ∧ Own m' t p' s' ∧ Adds m s' m' := by
  induction t generalizing m p s n with
  | frac f =>
    obtain ⟨h, rfl⟩ := h
    cases n with
    | zero => simp [size] at hn
    | succ n =>
      rw [copyNode, bind_ok' (get_ok h)]
      dsimp only
      obtain ⟨m', h1, h2, h3⟩ := alloc_adds hm (.frac f)
      exact ⟨_, _, m', h1, ⟨h2, rfl⟩, h3⟩
  | op c l r ihl ihr =>
    obtain ⟨a, b, sa, sb, h, h1, h2, rfl, hd⟩ := h
    cases n with
    | zero => simp [size] at hn
    | succ n =>
      simp only [size] at hn
      rw [copyNode, bind_ok' (get_ok h)]
      dsimp only
      obtain ⟨a', sa', m1, e1, o1, d1⟩ := ihl hm h1 (n := n) (by omega)
      rw [bind_ok' e1]
      obtain ⟨b', sb', m2, e2, o2, d2⟩ := ihr d1.wf (d1.frame hm h2) (n := n) (by omega)
      rw [bind_ok' e2]
      obtain ⟨m3, e3, c3, d3⟩ := alloc_adds d2.wf (.op c a' b')
      have la : ∀ x ∈ sa', x < m1.next := o1.lt d1.wf
      have lb : ∀ x ∈ sb', x < m2.next := o2.lt d2.wf
      have o1' := d3.frame d2.wf (d2.frame d1.wf o1)
      have o2' := d3.frame d2.wf o2
      refine ⟨m2.next, m2.next :: (sa' ++ sb'), m3, e3, ⟨a', b', sa', sb', c3, o1', o2', rfl, ?_⟩, ?_⟩
      · rw [List.nodup_cons, List.nodup_append, List.mem_append, not_or]
        refine ⟨⟨fun hx => ?_, fun hx => ?_⟩, o1.nodup, o2.nodup, ?_⟩
        · have := la _ hx
          have := d2.next
          omega
        · have := lb _ hx
          omega
        · rintro x hx _ hy rfl
          have := la x hx
          have := d2.fresh x hy
          omega
      · have := (d1.trans d2).trans d3
        refine ⟨this.wf, this.next, fun x hx => this.fresh x ?_, fun x hx => this.same x fun hx' => hx ?_⟩
        · simp only [List.mem_cons, List.mem_append] at hx ⊢
          tauto
        · simp only [List.mem_cons, List.mem_append, List.not_mem_nil, or_false] at hx' ⊢
          tauto

/-! ### changing in place -/

/-- the objects `s` of `m` have become `s'`; the others are untouched. -/
structure Changed (m : Mem) (s s' : List Nat) (m' : Mem) : Prop where
  next : m'.next = m.next
  sub : ∀ a ∈ s', a ∈ s
  same : ∀ a, a ∉ s' → m'.cell a = if a ∈ s then none else m.cell a

theorem Changed.outside {m m' : Mem} {s s' : List Nat} (h : Changed m s s' m') {a : Nat} (ha : a ∉ s) :
    m'.cell a = m.cell a := by
  rw [h.same a fun hs => ha (h.sub a hs), if_neg ha]

theorem Own.changed_refl {m : Mem} {t : Node} {p : Nat} {s : List Nat} (_h : Own m t p s) : Changed m s s m :=
  ⟨rfl, fun _ h => h, fun a ha => by rw [if_neg ha]⟩

/-- a method on the node `p` owning `t`: no fault, the outcome is that of `result`, and `p` owns a tree again, the result if
there is one. -/
def Method (m : Mem) (p : Nat) (s : List Nat) (result : Res Node) (x : M Unit) : Prop :=
  ∃ r m' t' s', x m = some (r, m') ∧ outcome r = outcome result ∧ Own m' t' p s' ∧ Changed m s s' m' ∧
    ∀ t, result = .ok t → t' = t

theorem becomeFrac_own {m : Mem} {t : Node} {p : Nat} {s : List Nat} {n : Nat} {f : Frac} (h : Own m t p s)
    (hn : size t ≤ n + 1) : ∃ m', becomeFrac n p f m = some (.ok (), m') ∧ Own m' (.frac f) p [p] ∧ Changed m s [p] m' := by
  cases t with
  | frac g =>
    obtain ⟨h, rfl⟩ := h
    refine ⟨⟨m.next, Function.update m.cell p (some (.frac f))⟩, by rw [becomeFrac, bind_ok' (get_ok h)]; exact set_ok h,
      ⟨by simp, rfl⟩, rfl, by simp, ?_⟩
    intro a ha
    simp only [List.mem_singleton] at ha
    simp [ha]
  | op c l r =>
    obtain ⟨a, b, sa, sb, h, h1, h2, rfl, hd⟩ := h
    simp only [size] at hn
    rw [List.nodup_cons, List.nodup_append, List.mem_append, not_or] at hd
    obtain ⟨⟨hpa, hpb⟩, -, -, hab⟩ := hd
    have h2' : Own (m.erase sa) r b sb := h2.frame fun x hx => by
      have : x ∉ sa := fun hx' => hab x hx' x hx rfl
      simp [Mem.erase, this]
    refine ⟨⟨m.next, Function.update ((m.erase sa).erase sb).cell p (some (.frac f))⟩, ?_, ?_, ?_⟩
    · rw [becomeFrac, bind_ok' (get_ok h)]
      dsimp only
      rw [bind_ok' (deleteNode_own h1 (by omega)), bind_ok' (deleteNode_own h2' (by omega))]
      exact set_ok (c := .op c a b) (by simp [Mem.erase, hpa, hpb, h])
    · exact ⟨by simp, rfl⟩
    · refine ⟨rfl, by simp, ?_⟩
      intro x hx
      simp only [List.mem_singleton] at hx
      by_cases hxa : x ∈ sa <;> by_cases hxb : x ∈ sb <;> simp [hx, hxa, hxb, Mem.erase]

/-- the value of an operator in `Node.normalize`. -/
theorem normalize_op (c : Char) (l r : Node) : Node.normalize env (.op c l r) = (do
    let lv ← Node.tryEval env l
    let rv ← Node.tryEval env r
    match lv, rv with
    | some a, some b => do
      match ← normOp env c a b with
      | some x => .ok (.frac x)
      | none => do
        let l ← Node.normalize env l
        let r ← Node.normalize env r
        .ok (.op c l r)
    | _, _ => do
      let r ← Node.normalize env r
      let l ← Node.normalize env l
      .ok (.op c l r)) := by
  rw [Node.normalize]
  cases Node.tryEval env l with
  | ok lv =>
    cases Node.tryEval env r with
    | ok rv =>
      simp only [Res.bind_ok]
      cases lv with
      | none => rfl
      | some a =>
        cases rv with
        | none => rfl
        | some b =>
          simp only [normOp]
          by_cases h1 : c = '+'
          · simp only [h1, if_true]; cases Frac.add env a b <;> rfl
          by_cases h2 : c = '-'
          · simp only [h2, if_true, if_neg (show ¬ '-' = '+' by decide)]; cases Frac.sub env a b <;> rfl
          by_cases h3 : c = '*'
          · simp only [h3, if_true, if_neg (show ¬ '*' = '+' by decide), if_neg (show ¬ '*' = '-' by decide)]
            cases Frac.mul env a b <;> rfl
          by_cases h4 : c = '/'
          · simp only [h4, if_true, if_neg (show ¬ '/' = '+' by decide), if_neg (show ¬ '/' = '-' by decide),
              if_neg (show ¬ '/' = '*' by decide)]
            cases Frac.div env a b <;> rfl
          by_cases h5 : c = '^'
          · simp only [h5, if_true, if_neg (show ¬ '^' = '+' by decide), if_neg (show ¬ '^' = '-' by decide),
              if_neg (show ¬ '^' = '*' by decide), if_neg (show ¬ '^' = '/' by decide)]
            cases Frac.tryEval env b with
            | ok power =>
              simp only [Res.bind_ok]
              cases power with
              | none => rfl
              | some p =>
                simp only
                cases Real.isRational env.toEnv p with
                | ok b =>
                  cases b with
                  | false => rfl
                  | true =>
                    simp only [Res.bind_ok, if_true]
                    cases Real.toRational env.toEnv p with
                    | ok q =>
                      simp only [Res.bind_ok]
                      cases Frac.pow env a q <;> rfl
                    | _ => rfl
                | _ => rfl
            | _ => rfl
          · simp only [h1, h2, h3, h4, h5, if_false]
            rfl
    | _ => rfl
  | _ => rfl

/-- the parts of the footprint of an operator are disjoint. -/
theorem op_disjoint {p : Nat} {sa sb : List Nat} (h : (p :: (sa ++ sb)).Nodup) :
    (p ∉ sa ∧ p ∉ sb) ∧ (∀ x ∈ sa, x ∉ sb) ∧ ∀ x ∈ sb, x ∉ sa := by
  rw [List.nodup_cons, List.nodup_append, List.mem_append, not_or] at h
  exact ⟨h.1, fun x hx hy => h.2.2.2 x hx x hy rfl, fun x hx hy => h.2.2.2 x hy x hx rfl⟩

/-- after the left subtree has changed, the node owns the new tree. -/
theorem Own.left {m m' : Mem} {c : Char} {l' r : Node} {p a b : Nat} {sa sa' sb : List Nat}
    (hc : m.cell p = some (.op c a b)) (h2 : Own m r b sb) (hd : (p :: (sa ++ sb)).Nodup)
    (h1 : Own m' l' a sa') (hch : Changed m sa sa' m') :
    m'.cell p = some (.op c a b) ∧ Own m' r b sb ∧ (p :: (sa' ++ sb)).Nodup ∧ Own m' (.op c l' r) p (p :: (sa' ++ sb)) ∧
      Changed m (p :: (sa ++ sb)) (p :: (sa' ++ sb)) m' := by
  obtain ⟨⟨hpa, hpb⟩, hab, hba⟩ := op_disjoint hd
  have e1 : m'.cell p = some (.op c a b) := by rw [hch.outside hpa, hc]
  have e2 : Own m' r b sb := h2.frame fun x hx => hch.outside (hba x hx)
  have e3 : (p :: (sa' ++ sb)).Nodup := by
    rw [List.nodup_cons, List.nodup_append, List.mem_append, not_or]
    exact ⟨⟨fun h => hpa (hch.sub _ h), hpb⟩, h1.nodup, h2.nodup, by
      rintro x hx _ hy rfl
      exact hab x (hch.sub x hx) hy⟩
  refine ⟨e1, e2, e3, ⟨a, b, sa', sb, e1, h1, e2, rfl, e3⟩, hch.next, ?_, ?_⟩
  · intro x hx
    simp only [List.mem_cons, List.mem_append] at hx ⊢
    rcases hx with hx | hx | hx
    · exact Or.inl hx
    · exact Or.inr (Or.inl (hch.sub x hx))
    · exact Or.inr (Or.inr hx)
  · intro x hx
    simp only [List.mem_cons, List.mem_append, not_or] at hx ⊢
    obtain ⟨hx1, hx2, hx3⟩ := hx
    rw [hch.same x hx2]
    simp [hx1, hx3]

/-- after the right subtree has changed, the node owns the new tree. -/
theorem Own.right {m m' : Mem} {c : Char} {l r' : Node} {p a b : Nat} {sa sb sb' : List Nat}
    (hc : m.cell p = some (.op c a b)) (h1 : Own m l a sa) (hd : (p :: (sa ++ sb)).Nodup)
    (h2 : Own m' r' b sb') (hch : Changed m sb sb' m') :
    m'.cell p = some (.op c a b) ∧ Own m' l a sa ∧ (p :: (sa ++ sb')).Nodup ∧ Own m' (.op c l r') p (p :: (sa ++ sb')) ∧
      Changed m (p :: (sa ++ sb)) (p :: (sa ++ sb')) m' := by
  obtain ⟨⟨hpa, hpb⟩, hab, hba⟩ := op_disjoint hd
  have e1 : m'.cell p = some (.op c a b) := by rw [hch.outside hpb, hc]
  have e2 : Own m' l a sa := h1.frame fun x hx => hch.outside (hab x hx)
  have e3 : (p :: (sa ++ sb')).Nodup := by
    rw [List.nodup_cons, List.nodup_append, List.mem_append, not_or]
    exact ⟨⟨hpa, fun h => hpb (hch.sub _ h)⟩, h1.nodup, h2.nodup, by
      rintro x hx _ hy rfl
      exact hab x hx (hch.sub x hy)⟩
  refine ⟨e1, e2, e3, ⟨a, b, sa, sb', e1, e2, h2, rfl, e3⟩, hch.next, ?_, ?_⟩
  · intro x hx
    simp only [List.mem_cons, List.mem_append] at hx ⊢
    rcases hx with hx | hx | hx
    · exact Or.inl hx
    · exact Or.inr (Or.inl hx)
    · exact Or.inr (Or.inr (hch.sub x hx))
  · intro x hx
    simp only [List.mem_cons, List.mem_append, not_or] at hx ⊢
    obtain ⟨hx1, hx2, hx3⟩ := hx
    rw [hch.same x hx3]
    simp [hx1, hx2]

theorem Changed.trans {m m' m'' : Mem} {s s' s'' : List Nat} (h : Changed m s s' m') (h' : Changed m' s' s'' m'') :
    Changed m s s'' m'' where
  next := h'.next.trans h.next
  sub a ha := h.sub a (h'.sub a ha)
  same a ha := by
    rw [h'.same a ha]
    by_cases hs : a ∈ s'
    · rw [if_pos hs, if_pos (h.sub a hs)]
    · rw [if_neg hs, h.same a hs]

/-- a failure before anything has changed. -/
theorem Method.fail {m : Mem} {t : Node} {p : Nat} {s : List Nat} {x : M Unit} {r : Res Unit} {res : Res Node}
    (h : Own m t p s) (hx : x m = some (r, m)) (ho : outcome r = outcome res) (hr : ∀ t', res ≠ .ok t') : Method m p s res x :=
  ⟨r, m, t, s, hx, ho, h, h.changed_refl, fun t' ht => absurd ht (hr t')⟩

/-- a method, then another. -/
theorem Method.seq {m : Mem} {p : Nat} {s : List Nat} {res₁ : Res Node} {x : M Unit} {y : M Unit} {f : Node → Res Node}
    (h : Method m p s res₁ x)
    (hy : ∀ m' t' s', res₁ = .ok t' → Own m' t' p s' → m'.next = m.next → Method m' p s' (f t') y) :
    Method m p s (res₁ >>= f) (do x; y) := by
  obtain ⟨r, m', t', s', h1, h2, h3, h4, h5⟩ := h
  cases r with
  | ok u =>
    cases res₁ with
    | ok t =>
      obtain ⟨r', m'', t'', s'', g1, g2, g3, g4, g5⟩ := hy m' t s' rfl (h5 t rfl ▸ h3) h4.next
      exact ⟨r', m'', t'', s'', by rw [bind_ok' h1, g1], g2, g3, h4.trans g4, g5⟩
    | _ => simp [outcome] at h2
  | throw e =>
    cases res₁ <;> simp only [outcome, reduceCtorEq, Res.throw.injEq] at h2
    subst h2
    exact ⟨_, m', t', s', bind_throw' h1, rfl, h3, h4, fun t ht => by cases ht⟩
  | exn e =>
    cases res₁ <;> simp only [outcome, reduceCtorEq, Res.exn.injEq] at h2
    subst h2
    exact ⟨_, m', t', s', bind_exn' h1, rfl, h3, h4, fun t ht => by cases ht⟩
  | ub e =>
    cases res₁ <;> simp only [outcome, reduceCtorEq, Res.ub.injEq] at h2
    subst h2
    exact ⟨_, m', t', s', bind_ub' h1, rfl, h3, h4, fun t ht => by cases ht⟩
  | fuel =>
    cases res₁ <;> simp only [outcome, reduceCtorEq] at h2
    exact ⟨_, m', t', s', bind_fuel' h1, rfl, h3, h4, fun t ht => by cases ht⟩

/-- a method on the left child. -/
theorem Method.onLeft {m : Mem} {c : Char} {r : Node} {p a b : Nat} {sa sb : List Nat} {res : Res Node} {x : M Unit}
    (hc : m.cell p = some (.op c a b)) (h2 : Own m r b sb) (hd : (p :: (sa ++ sb)).Nodup)
    (h : Method m a sa res x) : Method m p (p :: (sa ++ sb)) (do let l ← res; .ok (.op c l r)) x := by
  obtain ⟨q, m', t', s', h1, ho, h3, h4, h5⟩ := h
  obtain ⟨-, -, -, e4, e5⟩ := Own.left hc h2 hd h3 h4
  refine ⟨q, m', _, _, h1, ?_, e4, e5, ?_⟩
  · rw [ho]
    cases res <;> rfl
  · intro t ht
    obtain ⟨l', hl, h⟩ := Res.bind_eq_ok.1 ht
    cases h
    rw [h5 l' hl]

/-- a method on the right child. -/
theorem Method.onRight {m : Mem} {c : Char} {l : Node} {p a b : Nat} {sa sb : List Nat} {res : Res Node} {x : M Unit}
    (hc : m.cell p = some (.op c a b)) (h1 : Own m l a sa) (hd : (p :: (sa ++ sb)).Nodup)
    (h : Method m b sb res x) : Method m p (p :: (sa ++ sb)) (do let r ← res; .ok (.op c l r)) x := by
  obtain ⟨q, m', t', s', hx, ho, h3, h4, h5⟩ := h
  obtain ⟨-, -, -, e4, e5⟩ := Own.right hc h1 hd h3 h4
  refine ⟨q, m', _, _, hx, ?_, e4, e5, ?_⟩
  · rw [ho]
    cases res <;> rfl
  · intro t ht
    obtain ⟨l', hl, h⟩ := Res.bind_eq_ok.1 ht
    cases h
    rw [h5 l' hl]

/-- two methods on the children, left first. -/
theorem Method.both {c : Char} {l r : Node} {x y : Nat → M Unit} {f g : Node → Res Node}
    (hl : ∀ m a sa, Own m l a sa → Method m a sa (f l) (x a)) (hr : ∀ m b sb, Own m r b sb → Method m b sb (g r) (y b))
    {m : Mem} {p a b : Nat} {sa sb : List Nat} (hc : m.cell p = some (.op c a b)) (h1 : Own m l a sa) (h2 : Own m r b sb)
    (hd : (p :: (sa ++ sb)).Nodup) :
    Method m p (p :: (sa ++ sb)) (do let l ← f l; let r ← g r; .ok (.op c l r)) (do x a; y b) := by
  obtain ⟨q, m', l', sa', e1, ho, o1, ch, hv⟩ := hl m a sa h1
  obtain ⟨c', o2, d', ow, ch'⟩ := Own.left hc h2 hd o1 ch
  cases q with
  | ok u =>
    cases hf : f l with
    | ok l'' =>
      cases hv l'' hf
      obtain ⟨q', m'', t'', s'', g1, g2, g3, g4, g5⟩ := Method.onRight c' o1 d' (hr m' b sb o2)
      refine ⟨q', m'', t'', s'', by rw [bind_ok' e1, g1], ?_, g3, ch'.trans g4, g5⟩
      exact g2
    | _ => rw [hf] at ho; simp [outcome] at ho
  | throw e =>
    cases hf : f l <;> rw [hf] at ho <;> simp only [outcome, reduceCtorEq, Res.throw.injEq] at ho
    subst ho
    exact ⟨_, m', _, _, bind_throw' e1, rfl, ow, ch', fun t ht => by cases ht⟩
  | exn e =>
    cases hf : f l <;> rw [hf] at ho <;> simp only [outcome, reduceCtorEq, Res.exn.injEq] at ho
    subst ho
    exact ⟨_, m', _, _, bind_exn' e1, rfl, ow, ch', fun t ht => by cases ht⟩
  | ub e =>
    cases hf : f l <;> rw [hf] at ho <;> simp only [outcome, reduceCtorEq, Res.ub.injEq] at ho
    subst ho
    exact ⟨_, m', _, _, bind_ub' e1, rfl, ow, ch', fun t ht => by cases ht⟩
  | fuel =>
    cases hf : f l <;> rw [hf] at ho <;> simp only [outcome, reduceCtorEq] at ho
    exact ⟨_, m', _, _, bind_fuel' e1, rfl, ow, ch', fun t ht => by cases ht⟩

/-- two methods on the children, right first. -/
theorem Method.bothR {c : Char} {l r : Node} {x y : Nat → M Unit} {f g : Node → Res Node}
    (hl : ∀ m a sa, Own m l a sa → Method m a sa (f l) (x a)) (hr : ∀ m b sb, Own m r b sb → Method m b sb (g r) (y b))
    {m : Mem} {p a b : Nat} {sa sb : List Nat} (hc : m.cell p = some (.op c a b)) (h1 : Own m l a sa) (h2 : Own m r b sb)
    (hd : (p :: (sa ++ sb)).Nodup) :
    Method m p (p :: (sa ++ sb)) (do let r ← g r; let l ← f l; .ok (.op c l r)) (do y b; x a) := by
  obtain ⟨q, m', r', sb', e1, ho, o2, ch, hv⟩ := hr m b sb h2
  obtain ⟨c', o1, d', ow, ch'⟩ := Own.right hc h1 hd o2 ch
  cases q with
  | ok u =>
    cases hf : g r with
    | ok r'' =>
      cases hv r'' hf
      obtain ⟨q', m'', t'', s'', g1, g2, g3, g4, g5⟩ := Method.onLeft c' o2 d' (hl m' a sa o1)
      refine ⟨q', m'', t'', s'', by rw [bind_ok' e1, g1], ?_, g3, ch'.trans g4, g5⟩
      exact g2
    | _ => rw [hf] at ho; simp [outcome] at ho
  | throw e =>
    cases hf : g r <;> rw [hf] at ho <;> simp only [outcome, reduceCtorEq, Res.throw.injEq] at ho
    subst ho
    exact ⟨_, m', _, _, bind_throw' e1, rfl, ow, ch', fun t ht => by cases ht⟩
  | exn e =>
    cases hf : g r <;> rw [hf] at ho <;> simp only [outcome, reduceCtorEq, Res.exn.injEq] at ho
    subst ho
    exact ⟨_, m', _, _, bind_exn' e1, rfl, ow, ch', fun t ht => by cases ht⟩
  | ub e =>
    cases hf : g r <;> rw [hf] at ho <;> simp only [outcome, reduceCtorEq, Res.ub.injEq] at ho
    subst ho
    exact ⟨_, m', _, _, bind_ub' e1, rfl, ow, ch', fun t ht => by cases ht⟩
  | fuel =>
    cases hf : g r <;> rw [hf] at ho <;> simp only [outcome, reduceCtorEq] at ho
    exact ⟨_, m', _, _, bind_fuel' e1, rfl, ow, ch', fun t ht => by cases ht⟩

theorem normalize_own {m : Mem} {t : Node} {p : Nat} {s : List Nat} {n : Nat} (h : Own m t p s) (hn : size t ≤ n) :
    Method m p s (Node.normalize env t) (normalize env n p) := by
  induction t generalizing m p s n with
  | frac f =>
    cases n with
    | zero => simp [size] at hn
    | succ n =>
      refine ⟨.ok (), m, .frac f, s, ?_, rfl, h, h.changed_refl, fun t ht => by cases ht; rfl⟩
      rw [normalize, bind_ok' (get_ok h.1)]
      rfl
  | op c l r ihl ihr =>
    cases n with
    | zero => simp [size] at hn
    | succ n =>
      have hO := h
      obtain ⟨a, b, sa, sb, hc, h1, h2, rfl, hd⟩ := h
      have hn' := hn
      simp only [size] at hn
      have hl : ∀ m a sa, Own m l a sa → Method m a sa (Node.normalize env l) (normalize env n a) :=
        fun m a sa h => ihl h (by omega)
      have hr : ∀ m b sb, Own m r b sb → Method m b sb (Node.normalize env r) (normalize env n b) :=
        fun m a sa h => ihr h (by omega)
      rw [normalize_op]
      have el := tryEval_own (env := env) h1 (n := n) (by omega)
      have er := tryEval_own (env := env) h2 (n := n) (by omega)
      unfold Method
      rw [normalize, bind_ok' (get_ok hc)]
      dsimp only
      show Method m p _ _ (do
        let lv ← tryEval env n a
        let rv ← tryEval env n b
        match lv, rv with
        | some a', some b' => do
          match ← M.lift (normOp env c a' b') with
          | some x => becomeFrac n p x
          | none => do
            normalize env n a
            normalize env n b
        | _, _ => do
          normalize env n b
          normalize env n a)
      cases hv : Node.tryEval env l with
      | ok lv =>
        rw [hv] at el
        cases hw : Node.tryEval env r with
        | ok rv =>
          rw [hw] at er
          unfold Method
          rw [bind_ok' el, bind_ok' er]
          simp only [Res.bind_ok]
          have swap : Method m p (p :: (sa ++ sb)) (do
              let r ← Node.normalize env r
              let l ← Node.normalize env l
              .ok (.op c l r)) (do normalize env n b; normalize env n a) :=
            Method.bothR hl hr hc h1 h2 hd
          cases lv with
          | none => exact swap
          | some a' =>
            cases rv with
            | none => exact swap
            | some b' =>
              dsimp only
              cases hp : normOp env c a' b' with
              | ok o =>
                simp only [Res.bind_ok]
                rw [bind_ok' (x := M.lift (.ok o)) rfl]
                cases o with
                | some x =>
                  obtain ⟨m', e, o', ch⟩ := becomeFrac_own (f := x) hO hn'
                  exact ⟨_, m', _, _, e, rfl, o', ch, fun t ht => by cases ht; rfl⟩
                | none => exact Method.both hl hr hc h1 h2 hd
              | throw e =>
                exact Method.fail (x := do let o ← M.lift (.throw e : Res (Option Frac)); _) hO (bind_throw' rfl) rfl (by simp)
              | exn e => exact Method.fail hO (bind_exn' (x := M.lift (.exn e : Res (Option Frac))) rfl) rfl (by simp)
              | ub e => exact Method.fail hO (bind_ub' (x := M.lift (.ub e : Res (Option Frac))) rfl) rfl (by simp)
              | fuel => exact Method.fail hO (bind_fuel' (x := M.lift (.fuel : Res (Option Frac))) rfl) rfl (by simp)
        | throw e => rw [hw] at er; exact Method.fail hO (by rw [bind_ok' el]; exact bind_throw' er) rfl (by simp)
        | exn e => rw [hw] at er; exact Method.fail hO (by rw [bind_ok' el]; exact bind_exn' er) rfl (by simp)
        | ub e => rw [hw] at er; exact Method.fail hO (by rw [bind_ok' el]; exact bind_ub' er) rfl (by simp)
        | fuel => rw [hw] at er; exact Method.fail hO (by rw [bind_ok' el]; exact bind_fuel' er) rfl (by simp)
      | throw e => rw [hv] at el; exact Method.fail hO (bind_throw' el) rfl (by simp)
      | exn e => rw [hv] at el; exact Method.fail hO (bind_exn' el) rfl (by simp)
      | ub e => rw [hv] at el; exact Method.fail hO (bind_ub' el) rfl (by simp)
      | fuel => rw [hv] at el; exact Method.fail hO (bind_fuel' el) rfl (by simp)

theorem normalize_size {t t' : Node} (h : Node.normalize env t = .ok t') :
    size t' ≤ size t := by
  induction t generalizing t' with
  | frac f => cases h; rfl
  | op c l r ihl ihr =>
    rw [normalize_op] at h
    obtain ⟨lv, -, h⟩ := Res.bind_eq_ok.1 h
    obtain ⟨rv, -, h⟩ := Res.bind_eq_ok.1 h
    have hs : ∀ {l' r' : Node}, Node.normalize env l = .ok l' → Node.normalize env r = .ok r' →
        size (.op c l' r') ≤ size (.op c l r) := by
      intro l' r' h1 h2
      have := ihl h1
      have := ihr h2
      simp only [size]
      omega
    have swap : (do
        let r ← Node.normalize env r
        let l ← Node.normalize env l
        .ok (.op c l r) : Res Node) = .ok t' → size t' ≤ size (.op c l r) := by
      intro h
      obtain ⟨r', h1, h⟩ := Res.bind_eq_ok.1 h
      obtain ⟨l', h2, h⟩ := Res.bind_eq_ok.1 h
      cases h
      exact hs h2 h1
    cases lv with
    | none => exact swap h
    | some a =>
      cases rv with
      | none => exact swap h
      | some b =>
        dsimp only at h
        obtain ⟨o, -, h⟩ := Res.bind_eq_ok.1 h
        cases o with
        | some x => cases h; simp only [size]; omega
        | none =>
          dsimp only at h
          obtain ⟨l', h1, h⟩ := Res.bind_eq_ok.1 h
          obtain ⟨r', h2, h⟩ := Res.bind_eq_ok.1 h
          cases h
          exact hs h1 h2

theorem substitute_size {e : List (List Char × Num.Real)} {t t' : Node} (h : Node.substitute env e t = .ok t') :
    size t' ≤ size t := by
  induction t generalizing t' with
  | frac f =>
    obtain ⟨f', -, h⟩ := Res.bind_eq_ok.1 h
    cases h
    rfl
  | op c l r ihl ihr =>
    obtain ⟨l', h1, h⟩ := Res.bind_eq_ok.1 h
    obtain ⟨r', h2, h⟩ := Res.bind_eq_ok.1 h
    have := normalize_size h
    have := ihl h1
    have := ihr h2
    simp only [size] at *
    omega

theorem substitute_own {e : List (List Char × Num.Real)} {m : Mem} {t : Node} {p : Nat} {s : List Nat} {n : Nat}
    (h : Own m t p s) (hn : size t ≤ n) : Method m p s (Node.substitute env e t) (substitute env e n p) := by
  induction t generalizing m p s n with
  | frac f =>
    have hO := h
    obtain ⟨h, rfl⟩ := h
    cases n with
    | zero => simp [size] at hn
    | succ n =>
      unfold Method
      rw [substitute, bind_ok' (get_ok h), Node.substitute]
      dsimp only
      cases hf : Frac.substitute env e f with
      | ok f' =>
        refine ⟨.ok (), ⟨m.next, Function.update m.cell p (some (.frac f'))⟩, .frac f', [p], ?_, rfl, ⟨by simp, rfl⟩,
          ⟨rfl, fun _ h => h, ?_⟩, fun t ht => by cases ht; rfl⟩
        · rw [bind_ok' (x := M.lift (.ok f')) rfl]
          exact set_ok h
        · intro a ha
          rw [if_neg ha]
          simp only [List.mem_singleton] at ha
          simp [ha]
      | throw e => exact Method.fail hO (bind_throw' (x := M.lift (.throw e : Res Frac)) rfl) rfl (by simp)
      | exn e => exact Method.fail hO (bind_exn' (x := M.lift (.exn e : Res Frac)) rfl) rfl (by simp)
      | ub e => exact Method.fail hO (bind_ub' (x := M.lift (.ub e : Res Frac)) rfl) rfl (by simp)
      | fuel => exact Method.fail hO (bind_fuel' (x := M.lift (.fuel : Res Frac)) rfl) rfl (by simp)
  | op c l r ihl ihr =>
    cases n with
    | zero => simp [size] at hn
    | succ n =>
      obtain ⟨a, b, sa, sb, hc, h1, h2, rfl, hd⟩ := h
      simp only [size] at hn
      have hb := Method.both (f := Node.substitute env e) (g := Node.substitute env e) (x := substitute env e n)
        (y := substitute env e n) (fun m a sa h => ihl h (by omega)) (fun m b sb h => ihr h (by omega)) hc h1 h2 hd
      have hs := Method.seq (y := normalize env (n + 1) p) (f := Node.normalize env) hb (by
        intro m' t' s' ht ho _
        obtain ⟨l', h1, ht⟩ := Res.bind_eq_ok.1 ht
        obtain ⟨r', h2, ht⟩ := Res.bind_eq_ok.1 ht
        cases ht
        have := substitute_size h1
        have := substitute_size h2
        exact normalize_own ho (by simp only [size]; omega))
      obtain ⟨q, m', t', s', e1, e2, e3, e4, e5⟩ := hs
      have er : Node.substitute env e (.op c l r) = (do
          let t ← (do
            let l ← Node.substitute env e l
            let r ← Node.substitute env e r
            .ok (.op c l r) : Res Node)
          Node.normalize env t) := by
        rw [Node.substitute]
        cases Node.substitute env e l with
        | ok l' => cases Node.substitute env e r <;> rfl
        | _ => rfl
      refine ⟨q, m', t', s', ?_, ?_, e3, e4, ?_⟩
      · rw [substitute, bind_ok' (get_ok hc)]
        dsimp only
        rw [← e1]
        show M.bind _ _ m = M.bind (M.bind _ _) _ m
        simp only [M.bind]
        cases substitute env e n a m with
        | none => rfl
        | some o =>
          rcases o with ⟨o, m1⟩
          cases o with
          | ok u =>
            show M.bind _ _ m1 = _
            simp only [M.bind]
          | _ => rfl
      · rw [e2, er]
      · intro t ht
        exact e5 t (er ▸ ht)

/-! ### the parser -/

theorem newOp_own {m : Mem} {l r : Node} {a b : Nat} {sa sb : List Nat} {n : Nat} {c : Char} (hm : m.WF)
    (h1 : Own m l a sa) (h2 : Own m r b sb) (hd : (sa ++ sb).Nodup) (hn : size l ≤ n) (hn' : size r ≤ n) :
    ∃ p s m', newOp n c a b m = some (.ok p, m') ∧ Own m' (.op c l r) p s ∧ m'.WF ∧ m.next ≤ m'.next ∧
      (∀ x ∈ s, m.next ≤ x) ∧ ∀ x, x ∉ s → m'.cell x = if x ∈ sa ++ sb then none else m.cell x := by
  obtain ⟨a', sa', m1, e1, o1, d1⟩ := copyNode_own hm h1 hn
  obtain ⟨b', sb', m2, e2, o2, d2⟩ := copyNode_own d1.wf (d1.frame hm h2) hn'
  obtain ⟨m3, e3, c3, d3⟩ := alloc_adds d2.wf (.op c a' b')
  have la : ∀ x ∈ sa', x < m1.next := o1.lt d1.wf
  have lb : ∀ x ∈ sb', x < m2.next := o2.lt d2.wf
  have h1' := d3.frame d2.wf (d2.frame d1.wf (d1.frame hm h1))
  have h2' := d3.frame d2.wf (d2.frame d1.wf (d1.frame hm h2))
  have o1' := d3.frame d2.wf (d2.frame d1.wf o1)
  have o2' := d3.frame d2.wf o2
  have lla : ∀ x ∈ sa, x < m.next := h1.lt hm
  have llb : ∀ x ∈ sb, x < m.next := h2.lt hm
  have hab : ∀ x ∈ sb, x ∉ sa := by
    rw [List.nodup_append] at hd
    exact fun x hx hy => hd.2.2 x hy x hx rfl
  have h2'' : Own (m3.erase sa) r b sb := h2'.frame fun x hx => by
    show (if x ∈ sa then none else _) = _
    rw [if_neg (hab x hx)]
  have n1 := d1.next
  have n2 := d2.next
  have n3 := d3.next
  have fa := d1.fresh
  have fb := d2.fresh
  have hp : ∀ x ∈ m2.next :: (sa' ++ sb'), m.next ≤ x := by
    intro x hx
    simp only [List.mem_cons, List.mem_append] at hx
    rcases hx with rfl | hx | hx
    · omega
    · exact fa x hx
    · have := fb x hx
      omega
  refine ⟨m2.next, m2.next :: (sa' ++ sb'), (m3.erase sa).erase sb, ?_, ?_, ?_, by show m.next ≤ m3.next; omega, hp, ?_⟩
  · rw [newOp, bind_ok' e1, bind_ok' e2, bind_ok' e3, bind_ok' (deleteNode_own h1' hn), bind_ok' (deleteNode_own h2'' hn')]
    rfl
  · have hO : Own m3 (.op c l r) m2.next (m2.next :: (sa' ++ sb')) := by
      refine ⟨a', b', sa', sb', c3, o1', o2', rfl, ?_⟩
      rw [List.nodup_cons, List.nodup_append, List.mem_append, not_or]
      refine ⟨⟨fun hx => ?_, fun hx => ?_⟩, o1.nodup, o2.nodup, ?_⟩
      · have := la _ hx
        omega
      · have := lb _ hx
        omega
      · rintro x hx _ hy rfl
        have := la x hx
        have := fb x hy
        omega
    refine hO.frame fun x hx => ?_
    have hxa : x ∉ sa := fun h => by have := lla x h; have := hp x hx; omega
    have hxb : x ∉ sb := fun h => by have := llb x h; have := hp x hx; omega
    simp [Mem.erase, hxa, hxb]
  · intro x hx
    have : m3.cell x = none := d3.wf x hx
    simp [Mem.erase, this]
  · intro x hx
    simp only [List.mem_cons, List.mem_append, not_or] at hx
    obtain ⟨hx1, hx2, hx3⟩ := hx
    have e : m3.cell x = m.cell x := by
      rw [d3.same x (by simpa using hx1), d2.same x hx3, d1.same x hx2]
    by_cases hxa : x ∈ sa <;> by_cases hxb : x ∈ sb <;> simp [Mem.erase, hxa, hxb, e]

theorem buildTree_own {m : Mem} {t : Node} {n : Nat} (hm : m.WF) (hn : size t ≤ n) :
    ∃ p s m', buildTree n t m = some (.ok p, m') ∧ Own m' t p s ∧ Adds m s m' := by
  induction t generalizing m with
  | frac f =>
    obtain ⟨m', h1, h2, h3⟩ := alloc_adds hm (.frac f)
    exact ⟨_, _, m', h1, ⟨h2, rfl⟩, h3⟩
  | op c l r ihl ihr =>
    simp only [size] at hn
    obtain ⟨a, sa, m1, e1, o1, d1⟩ := ihl hm (by omega)
    obtain ⟨b, sb, m2, e2, o2, d2⟩ := ihr d1.wf (by omega)
    have o1' := d2.frame d1.wf o1
    obtain ⟨p, s, m3, e3, o3, w3, n3, f3, s3⟩ := newOp_own (c := c) d2.wf o1' o2 (by
      rw [List.nodup_append]
      refine ⟨o1.nodup, o2.nodup, ?_⟩
      rintro x hx _ hy rfl
      have := o1.lt d1.wf x hx
      have := d2.fresh x hy
      omega) (n := n) (by omega) (by omega)
    have n1 := d1.next
    have n2 := d2.next
    refine ⟨p, s, m3, by rw [buildTree, bind_ok' e1, bind_ok' e2, e3], o3, w3, by omega, ?_, ?_⟩
    · intro x hx
      have := f3 x hx
      omega
    · intro x hx
      rw [s3 x hx]
      by_cases hs : x ∈ sa ++ sb
      · rw [if_pos hs]
        rw [List.mem_append] at hs
        refine (hm x ?_).symm
        rcases hs with hs | hs
        · exact d1.fresh x hs
        · have := d2.fresh x hs
          omega
      · rw [if_neg hs]
        rw [List.mem_append, not_or] at hs
        rw [d2.same x hs.2, d1.same x hs.1]

/-- parsing leaks: the result is a copy, the original tree stays alive. -/
theorem parse_own {m : Mem} {t : Node} {n : Nat} (hm : m.WF) (hn : size t ≤ n) :
    ∃ p s leak m', parse n t m = some (.ok p, m') ∧ Own m' t p s ∧ leak.length = size t ∧ (s ++ leak).Nodup ∧
      (∀ a ∈ leak, m'.cell a ≠ none) ∧ Adds m (s ++ leak) m' := by
  obtain ⟨q, l, m1, e1, o1, d1⟩ := buildTree_own hm hn
  obtain ⟨p, s, m2, e2, o2, d2⟩ := copyNode_own d1.wf o1 hn
  have o1' := d2.frame d1.wf o1
  refine ⟨p, s, l, m2, by rw [parse, bind_ok' e1, e2], o2, o1.length, ?_, o1'.live, ?_⟩
  · rw [List.nodup_append]
    refine ⟨o2.nodup, o1.nodup, ?_⟩
    rintro x hx _ hy rfl
    have := o1.lt d1.wf x hy
    have := d2.fresh x hx
    omega
  · have := d1.trans d2
    exact ⟨this.wf, this.next, fun a ha => this.fresh a (by rw [List.mem_append] at *; tauto),
      fun a ha => this.same a (by rw [List.mem_append] at *; tauto)⟩

end Symxx.Heap

import Verif.Num.Real
import Verif.Num.RatMore
import Mathlib.Data.Nat.Factorization.Basic
import Mathlib.Data.Nat.Factorization.Root
import Mathlib.Data.Nat.Squarefree
/-!
# What `decompose_radicand` computes
-/
namespace Symxx.Num

/-- the (exponent, factor) pairs stored in the map. -/
def pairs (m : FMap) : List (Nat × Nat) := m.flatMap fun r => r.2.map fun v => (r.1, v)

@[simp] theorem pairs_nil : pairs [] = [] := rfl
@[simp] theorem pairs_cons (e : Nat) (vs : List Nat) (m : FMap) :
    pairs ((e, vs) :: m) = vs.map (fun v => (e, v)) ++ pairs m := rfl

theorem pairs_push (m : FMap) (k v : Nat) : (pairs (m.push k v)).Perm ((k, v) :: pairs m) := by
  induction m with
  | nil => simp [FMap.push, pairs]
  | cons r t ih =>
    obtain ⟨k', vs⟩ := r
    unfold FMap.push
    split
    · simp
    · split
      · rename_i _ h
        subst h
        rw [pairs_cons, pairs_cons, List.map_append, List.append_assoc]
        simp only [List.map_cons, List.map_nil, List.cons_append, List.nil_append]
        exact List.perm_middle
      · rw [pairs_cons, pairs_cons]
        exact (ih.append_left _).trans List.perm_middle

/-- distinct elements of a sorted list with their multiplicities. -/
def runs : List Nat → Nat → List (Nat × Nat)
  | [], _ => []
  | [x], e => [(e, x)]
  | x :: y :: t, e => if x = y then runs (y :: t) (e + 1) else (e, x) :: runs (y :: t) 1

theorem pairs_runLoop (l : List Nat) (e : Nat) (m : FMap) :
    (pairs (runLoop l e m)).Perm (runs l e ++ pairs m) := by
  induction l generalizing e m with
  | nil => simp [runLoop, runs]
  | cons x t ih =>
    cases t with
    | nil => simpa [runLoop, runs] using pairs_push m e x
    | cons y t =>
      unfold runLoop runs
      split
      · exact ih _ _
      · refine (ih 1 (m.push e x)).trans ?_
        refine ((pairs_push m e x).append_left _).trans ?_
        simpa using List.perm_middle

/-- the pairs of `runs` for a sorted list: each distinct element once, with its multiplicity. -/
theorem runs_spec (x : Nat) (t : List Nat) (e : Nat) (hs : (x :: t).Pairwise (· ≤ ·)) (he : e ≠ 0) :
    (∀ p ∈ runs (x :: t) e, p.2 ∈ x :: t ∧ p.1 = (if p.2 = x then e - 1 else 0) + (x :: t).count p.2) ∧
    ((runs (x :: t) e).map Prod.snd).Nodup ∧
    (∀ q ∈ x :: t, q ∈ (runs (x :: t) e).map Prod.snd) := by
  induction t generalizing x e with
  | nil =>
    refine ⟨?_, by simp [runs], by simp [runs]⟩
    intro p hp
    simp only [runs, List.mem_singleton] at hp
    subst hp
    simp
    omega
  | cons y t ih =>
    have hs' : (y :: t).Pairwise (· ≤ ·) := (List.pairwise_cons.1 hs).2
    have hxy : ∀ z ∈ y :: t, x ≤ z := (List.pairwise_cons.1 hs).1
    have hyz : ∀ z ∈ t, y ≤ z := (List.pairwise_cons.1 hs').1
    unfold runs
    split
    · rename_i h
      subst h
      obtain ⟨h1, h2, h3⟩ := ih x (e + 1) hs' (by omega)
      refine ⟨?_, h2, ?_⟩
      · intro p hp
        obtain ⟨a, b⟩ := h1 p hp
        refine ⟨List.mem_cons_of_mem _ a, ?_⟩
        rw [b]
        by_cases hpx : p.2 = x
        · rw [if_pos hpx, if_pos hpx, hpx]; simp; omega
        · rw [if_neg hpx, if_neg hpx, List.count_cons_of_ne (by exact fun h => hpx h.symm) (l := x :: t)]
      · intro q hq
        rcases List.mem_cons.1 hq with rfl | hq
        · exact h3 _ (by simp)
        · exact h3 _ hq
    · rename_i h
      obtain ⟨h1, h2, h3⟩ := ih y 1 hs' (by omega)
      have hx : x ∉ y :: t := by
        intro hm
        rcases List.mem_cons.1 hm with rfl | hm
        · exact h rfl
        · have := hyz x hm; have := hxy y (by simp); omega
      refine ⟨?_, ?_, ?_⟩
      · intro p hp
        rcases List.mem_cons.1 hp with rfl | hp
        · simp only [List.mem_cons, true_or, true_and, if_true]
          rw [List.count_cons_self, List.count_eq_zero.2 hx]; omega
        · obtain ⟨a, b⟩ := h1 p hp
          refine ⟨List.mem_cons_of_mem _ a, ?_⟩
          have hpx : p.2 ≠ x := fun e => hx (e ▸ a)
          rw [b, if_neg hpx, List.count_cons_of_ne (fun h => hpx h.symm)]
          split <;> simp
      · rw [List.map_cons, List.nodup_cons]
        refine ⟨?_, h2⟩
        intro hm
        obtain ⟨p, hp, e1⟩ := List.mem_map.1 hm
        have e1 : p.2 = x := e1
        exact hx (e1 ▸ (h1 p hp).1)
      · intro q hq
        rw [List.map_cons]
        rcases List.mem_cons.1 hq with rfl | hq
        · simp
        · exact List.mem_cons_of_mem _ (h3 _ hq)

/-- product of `p^f(e)` over the pairs. -/
def prodF (f : Nat → Nat) (l : List (Nat × Nat)) : Nat := (l.map fun r => r.2 ^ f r.1).prod

@[simp] theorem prodF_nil (f) : prodF f [] = 1 := rfl
theorem prodF_append (f) (a b : List (Nat × Nat)) : prodF f (a ++ b) = prodF f a * prodF f b := by
  simp [prodF]
theorem prodF_perm (f) {a b : List (Nat × Nat)} (h : a.Perm b) : prodF f a = prodF f b :=
  (h.map _).prod_eq
theorem prodF_vals (f : Nat → Nat) (e : Nat) (vs : List Nat) :
    prodF f (vs.map fun v => (e, v)) = vs.prod ^ f e := by
  induction vs with
  | nil => simp
  | cons v vs ih =>
    simp only [prodF, List.map_cons, List.prod_cons] at ih ⊢
    rw [ih, mul_pow]

/-- the decomposition of `n`. -/
def decN (n : Nat) : FMap := runLoop n.primeFactorsList 1 []

theorem pairs_decN_perm (n : Nat) :
    (pairs (decN n)).Perm (n.primeFactors.toList.map fun q => (n.factorization q, q)) := by
  have h0 : (pairs (decN n)).Perm (runs n.primeFactorsList 1) := by
    have := pairs_runLoop n.primeFactorsList 1 []
    simpa [decN] using this
  refine h0.trans ?_
  have hnd : (n.primeFactors.toList.map fun q => (n.factorization q, q)).Nodup := by
    refine (Finset.nodup_toList _).map ?_
    intro a b h; simpa using (Prod.ext_iff.1 h).2
  cases hl : n.primeFactorsList with
  | nil =>
    have : n.primeFactors = ∅ := by
      rw [Nat.primeFactors, hl]; rfl
    rw [this]; simp [runs]
  | cons x t =>
    have hs : (x :: t).Pairwise (· ≤ ·) := by rw [← hl]; exact (Nat.primeFactorsList_sorted n).pairwise
    obtain ⟨h1, h2, h3⟩ := runs_spec x t 1 hs (by omega)
    · have hn1 : (runs (x :: t) 1).Nodup := List.Nodup.of_map _ h2
      rw [List.perm_ext_iff_of_nodup hn1 hnd]
      have hcount : ∀ q, (x :: t).count q = n.factorization q := by
        intro q; rw [← hl, Nat.primeFactorsList_count_eq]
      have hmem : ∀ q, q ∈ x :: t ↔ q ∈ n.primeFactors := by
        intro q; rw [← hl, ← Nat.toFinset_factors, List.mem_toFinset]
      have hval : ∀ p ∈ runs (x :: t) 1, p.1 = n.factorization p.2 := by
        intro p hp
        rw [(h1 p hp).2, hcount]; split <;> simp
      intro p
      constructor
      · intro hp
        rw [List.mem_map]
        exact ⟨p.2, by rw [Finset.mem_toList, ← hmem]; exact (h1 p hp).1, by rw [← hval p hp]⟩
      · intro hp
        obtain ⟨q, hq, rfl⟩ := List.mem_map.1 hp
        rw [Finset.mem_toList, ← hmem] at hq
        obtain ⟨p, hp, e⟩ := List.mem_map.1 (h3 q hq)
        have := hval p hp
        rw [e] at this
        rwa [← this, ← e]

theorem prodF_decN (n : Nat) (f : Nat → Nat) :
    prodF f (pairs (decN n)) = n.factorization.prod fun p e => p ^ f e := by
  rw [prodF_perm f (pairs_decN_perm n), prodF, List.map_map, Finsupp.prod, Nat.support_factorization]
  exact Finset.prod_map_toList _ _

theorem prodF_decN_id (n : Nat) (hn : n ≠ 0) : prodF id (pairs (decN n)) = n := by
  rw [prodF_decN]
  exact Nat.prod_factorization_pow_eq_self hn

/-- valuations of the reduced products. -/
theorem factorization_prodF (n : Nat) (f : Nat → Nat) (hf : f 0 = 0) (p : Nat) :
    (prodF f (pairs (decN n))).factorization p = f (n.factorization p) := by
  have e1 : prodF f (pairs (decN n)) = (n.factorization.mapRange f hf).prod (fun p e => p ^ e) := by
    rw [prodF_decN, Finsupp.prod_mapRange_index (by simp)]
  have hpr : ∀ q ∈ (n.factorization.mapRange f hf).support, q.Prime := by
    intro q hq
    have h1 : q ∈ n.factorization.support := Finsupp.support_mapRange hq
    rw [Nat.support_factorization] at h1
    exact Nat.prime_of_mem_primeFactors h1
  rw [e1, Nat.prod_pow_factorization_eq_self hpr, Finsupp.mapRange_apply]

theorem mem_pairs_decN {n : Nat} {r : Nat × Nat} (h : r ∈ pairs (decN n)) :
    r.2.Prime ∧ r.1 = n.factorization r.2 := by
  have := (pairs_decN_perm n).mem_iff.1 h
  obtain ⟨q, hq, rfl⟩ := List.mem_map.1 this
  exact ⟨Nat.prime_of_mem_primeFactors (Finset.mem_toList.1 hq), rfl⟩

theorem exists_pairs_decN {n p : Nat} (h : n.factorization p ≠ 0) :
    (n.factorization p, p) ∈ pairs (decN n) := by
  refine (pairs_decN_perm n).mem_iff.2 (List.mem_map.2 ⟨p, ?_, rfl⟩)
  rw [Finset.mem_toList, ← Nat.support_factorization, Finsupp.mem_support_iff]
  exact h

/-- no empty bucket. -/
theorem push_vals_ne {m : FMap} (hm : ∀ r ∈ m, r.2 ≠ []) (k v : Nat) : ∀ r ∈ m.push k v, r.2 ≠ [] := by
  induction m with
  | nil => intro r hr; simp [FMap.push] at hr; simp [hr]
  | cons a t ih =>
    obtain ⟨k', vs⟩ := a
    intro r hr
    unfold FMap.push at hr
    split at hr
    · rcases List.mem_cons.1 hr with rfl | hr
      · simp
      · exact hm _ hr
    · split at hr
      · rcases List.mem_cons.1 hr with rfl | hr
        · simp
        · exact hm _ (List.mem_cons_of_mem _ hr)
      · rcases List.mem_cons.1 hr with rfl | hr
        · exact hm _ (by simp)
        · exact ih (fun r h => hm r (List.mem_cons_of_mem _ h)) r hr

theorem runLoop_vals_ne (l : List Nat) (e : Nat) (m : FMap) (hm : ∀ r ∈ m, r.2 ≠ []) :
    ∀ r ∈ runLoop l e m, r.2 ≠ [] := by
  induction l generalizing e m with
  | nil => simpa [runLoop] using hm
  | cons x t ih =>
    cases t with
    | nil => simpa only [runLoop] using push_vals_ne hm e x
    | cons y t =>
      unfold runLoop
      split
      · exact ih _ _ hm
      · exact ih _ _ (push_vals_ne hm e x)

/-- every key of the map is the multiplicity of a prime. -/
theorem key_decN {n : Nat} {r : Nat × List Nat} (h : r ∈ decN n) :
    ∃ p, p.Prime ∧ r.1 = n.factorization p ∧ p ∣ n ∧ n ≠ 0 := by
  have hne := runLoop_vals_ne n.primeFactorsList 1 [] (by simp) r h
  obtain ⟨v, vs, e⟩ := List.exists_cons_of_ne_nil hne
  have hm : (r.1, v) ∈ pairs (decN n) := by
    rw [pairs, List.mem_flatMap]
    exact ⟨r, h, by rw [e]; simp⟩
  have h1 := (pairs_decN_perm n).mem_iff.1 hm
  obtain ⟨q, hq, e2⟩ := List.mem_map.1 h1
  have hq := Nat.mem_primeFactors.1 (Finset.mem_toList.1 hq)
  injection e2 with e2 e3
  exact ⟨q, hq.1, e2.symm, hq.2⟩

theorem key_of_prime {n p : Nat} (h : n.factorization p ≠ 0) : ∃ vs, (n.factorization p, vs) ∈ decN n := by
  have := exists_pairs_decN h
  rw [pairs, List.mem_flatMap] at this
  obtain ⟨r, hr, h2⟩ := this
  obtain ⟨v, -, e⟩ := List.mem_map.1 h2
  injection e with e1 e2
  exact ⟨r.2, by rw [← e1]; exact hr⟩

end Symxx.Num

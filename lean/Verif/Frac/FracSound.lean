import Verif.Frac.PolyOps
/-!
# Fractions: every operation that returns in the checked environment denotes the field operation
-/
namespace Symxx.Sym
open Symxx.Num

variable {B : Nat} {env : FEnv}

namespace Frac

theorem multLoop_sound {M : Int} {p : Poly} (hp : Poly.WF p) {m m' : Int} (hm : m ≠ 0)
    (h : multLoop M p m = .ok m') : m' ≠ 0 := by
  induction p generalizing m with
  | nil =>
    unfold multLoop at h
    injection h with h
    subst h
    exact hm
  | cons t p ih =>
    obtain ⟨ht, hp⟩ := Poly.wf_cons.1 hp
    unfold multLoop at h
    obtain ⟨m1, h1, h⟩ := Res.bind_eq_ok.1 h
    obtain ⟨-, e⟩ := chk_eq_ok.1 h1
    exact ih hp (by rw [e]; exact mul_ne_zero hm ht.coe.coe) h

theorem scaleAll_sound {env : Env} (hg : env.Base B) {m : Int} {p q : Poly} (hp : Poly.WF p)
    (h : scaleAll (env.checked B) m p = .ok q) :
    Poly.Den (fun ρ => m * Poly.value ρ p) q ∧ q.length = p.length := by
  unfold scaleAll at h
  have := Poly.mapM_sound (φ := fun _ x => (m : ℝ) * x) (P := fun ρ => ∀ x, 0 < ρ x) (fun _ _ _ => by ring)
    (fun _ => mul_zero _) hp (fun t ht t' h => by
      obtain ⟨u, h1, h⟩ := Res.bind_eq_ok.1 h
      have o := fun ρ => Term.ofInt_sound (ρ := ρ) hg h1
      have m := fun ρ hρ => Term.mul_sound (ρ := ρ) hg hρ (hp t ht) (o fun _ => 1).1 h
      exact ⟨(m (fun _ => 1) fun _ => one_pos).1, fun ρ hρ => by rw [(m ρ hρ).2.1, (o ρ).2.1]; ring⟩) h
  exact ⟨⟨this.1, fun ρ hρ => this.2.1 ρ hρ⟩, this.2.2⟩

/-- numerator and denominator are multiplied by the same non-zero factor. -/
structure Same (n d : (List Char → ℝ) → ℝ) (f : Frac) : Prop where
  wf : f.WF
  value : ∃ c : ℝ, c ≠ 0 ∧ ∀ ρ : List Char → ℝ, (∀ x, 0 < ρ x) →
    Poly.value ρ f.num = c * n ρ ∧ Poly.value ρ f.den = c * d ρ

theorem Same.congr {n d n' d' : (List Char → ℝ) → ℝ} {f : Frac} (h : Same n d f)
    (e : ∀ ρ : List Char → ℝ, (∀ x, 0 < ρ x) → n ρ = n' ρ ∧ d ρ = d' ρ) : Same n' d' f := by
  obtain ⟨w, c, hc, hv⟩ := h
  exact ⟨w, c, hc, fun ρ hρ => by rw [(hv ρ hρ).1, (hv ρ hρ).2, (e ρ hρ).1, (e ρ hρ).2]; exact ⟨rfl, rfl⟩⟩

theorem Same.of {n d : (List Char → ℝ) → ℝ} {f : Frac} (hn : Poly.Den n f.num) (hd : Poly.Den d f.den) : Same n d f :=
  ⟨⟨hn.wf, hd.wf⟩, 1, one_ne_zero, fun ρ hρ => by rw [hn.value ρ hρ, hd.value ρ hρ]; simp⟩

theorem Same.frac {n d : (List Char → ℝ) → ℝ} {f : Frac} (h : Same n d f) {ρ : List Char → ℝ} (hρ : ∀ x, 0 < ρ x) :
    Frac.value ρ f = n ρ / d ρ ∧ (Poly.value ρ f.den = 0 ↔ d ρ = 0) ∧ (Poly.value ρ f.num = 0 ↔ n ρ = 0) := by
  obtain ⟨-, c, hc, hv⟩ := h
  obtain ⟨h1, h2⟩ := hv ρ hρ
  unfold Frac.value
  rw [h1, h2]
  exact ⟨mul_div_mul_left _ _ hc, by simp [hc], by simp [hc]⟩

theorem normalize_sound (hg : env.toEnv.Base B) (hs : SortOk env.sort) {f r : Frac} (hf : f.WF)
    (h : normalize (env.checked B) f = .ok r) :
    Same (fun ρ => Poly.value ρ f.num) (fun ρ => Poly.value ρ f.den) r ∧ f.num ≠ [] ∧ f.den ≠ [] := by
  unfold normalize at h
  obtain ⟨n1, h1, h⟩ := Res.bind_eq_ok.1 h
  obtain ⟨d1, h2, h⟩ := Res.bind_eq_ok.1 h
  obtain ⟨m0, h3, h⟩ := Res.bind_eq_ok.1 h
  obtain ⟨m, h4, h⟩ := Res.bind_eq_ok.1 h
  obtain ⟨n2, h5, h⟩ := Res.bind_eq_ok.1 h
  obtain ⟨d2, h6, h⟩ := Res.bind_eq_ok.1 h
  obtain ⟨a1, a2, -⟩ := Poly.normalize_sound hg hs hf.num h1
  obtain ⟨b1, b2, -⟩ := Poly.normalize_sound hg hs hf.den h2
  have hm0 := multLoop_sound b1 one_ne_zero h3
  have hm := multLoop_sound a1 hm0 h4
  obtain ⟨s1, l1⟩ := scaleAll_sound hg a1 h5
  obtain ⟨s2, l2⟩ := scaleAll_sound hg b1 h6
  have hmR : (m : ℝ) ≠ 0 := by exact_mod_cast hm
  split at h
  swap
  · cases h
  rename_i n0 ns d0 ds
  have hnn : f.num ≠ [] := by
    intro hz
    rw [hz] at h1
    rw [Poly.normalize_nil hg hs h1] at l1
    simp at l1
  have hdn : f.den ≠ [] := by
    intro hz
    rw [hz] at h2
    rw [Poly.normalize_nil hg hs h2] at l2
    simp at l2
  refine ⟨?_, hnn, hdn⟩
  obtain ⟨x, h7, h⟩ := Res.bind_eq_ok.1 h
  obtain ⟨y, h8, h⟩ := Res.bind_eq_ok.1 h
  obtain ⟨g, h9, h⟩ := Res.bind_eq_ok.1 h
  obtain ⟨o, h10, h⟩ := Res.bind_eq_ok.1 h
  cases o with
  | none =>
    injection h with h
    subst h
    exact ⟨⟨s1.wf, s2.wf⟩, m, hmR, fun ρ hρ => by rw [s1.value ρ hρ, s2.value ρ hρ, a2, b2]; exact ⟨rfl, rfl⟩⟩
  | some g =>
    obtain ⟨gr, h11, h⟩ := Res.bind_eq_ok.1 h
    obtain ⟨n3, h12, h⟩ := Res.bind_eq_ok.1 h
    obtain ⟨d3, h13, h⟩ := Res.bind_eq_ok.1 h
    injection h with h
    subst h
    obtain ⟨o1, o2⟩ := Real.ofInt_sound hg h11
    obtain ⟨e1, e2⟩ := Poly.divReal_sound hg hs s1.wf o1.valid h12
    obtain ⟨e3, -⟩ := Poly.divReal_sound hg hs s2.wf o1.valid h13
    have hgr := e2 (by simp)
    refine ⟨⟨e1.wf, e3.wf⟩, m / gr.val, div_ne_zero hmR hgr, fun ρ hρ => ?_⟩
    simp only
    rw [e1.value ρ hρ, e3.value ρ hρ, s1.value ρ hρ, s2.value ρ hρ, a2, b2]
    constructor <;> ring

theorem normalize_den {n d : (List Char → ℝ) → ℝ} (hg : env.toEnv.Base B) (hs : SortOk env.sort) {f r : Frac}
    (hn : Poly.Den n f.num) (hd : Poly.Den d f.den) (h : normalize (env.checked B) f = .ok r) : Same n d r :=
  (normalize_sound hg hs ⟨hn.wf, hd.wf⟩ h).1.congr fun ρ hρ => ⟨hn.value ρ hρ, hd.value ρ hρ⟩

theorem onePoly_sound (hg : env.toEnv.Base B) (hs : SortOk env.sort) {d : Poly} (h : onePoly (env.checked B) = .ok d) :
    Poly.Den (fun _ => 1) d := by
  unfold onePoly at h
  obtain ⟨t, h2, h⟩ := Res.bind_eq_ok.1 h
  have o := fun ρ => Term.ofInt_sound (ρ := ρ) hg h2
  unfold Poly.mk' at h
  obtain ⟨n1, n2, -⟩ := Poly.normalize_sound hg hs (Poly.wf_singleton (o fun _ => 1).1) h
  exact ⟨n1, fun ρ _ => by rw [n2, Poly.value_singleton, (o ρ).2.1]; simp⟩

theorem ofPoly_sound (hg : env.toEnv.Base B) (hs : SortOk env.sort) {p : Poly} {r : Frac} (hp : Poly.WF p)
    (h : ofPoly (env.checked B) p = .ok r) : Same (fun ρ => Poly.value ρ p) (fun _ => 1) r := by
  unfold ofPoly at h
  obtain ⟨d, h1, h⟩ := Res.bind_eq_ok.1 h
  exact normalize_den hg hs (Poly.den_self hp) (onePoly_sound hg hs h1) h

theorem ofTerm_sound (hg : env.toEnv.Base B) (hs : SortOk env.sort) {t : Term} {r : Frac} (ht : t.WF)
    (h : ofTerm (env.checked B) t = .ok r) : Same (fun ρ => t.value ρ) (fun _ => 1) r := by
  unfold ofTerm at h
  obtain ⟨p, h1, h⟩ := Res.bind_eq_ok.1 h
  unfold Poly.mk' at h1
  obtain ⟨n1, n2, -⟩ := Poly.normalize_sound hg hs (Poly.wf_singleton ht) h1
  exact (ofPoly_sound hg hs n1 h).congr fun ρ _ => ⟨by rw [n2, Poly.value_singleton], rfl⟩

theorem ofReal_sound (hg : env.toEnv.Base B) (hs : SortOk env.sort) {c : Num.Real} {r : Frac} (hc : c.Valid)
    (h : ofReal (env.checked B) c = .ok r) : Same (fun _ => c.val) (fun _ => 1) r :=
  (ofTerm_sound hg hs (Term.ofReal_wf hc) h).congr fun _ _ => ⟨Term.ofReal_value c, rfl⟩

theorem mk2_sound (hg : env.toEnv.Base B) (hs : SortOk env.sort) {n d : Poly} {r : Frac} (hn : Poly.WF n)
    (hd : Poly.WF d) (h : mk2 (env.checked B) n d = .ok r) :
    Same (fun ρ => Poly.value ρ n) (fun ρ => Poly.value ρ d) r ∧ ∃ t ∈ d, t.coe.val ≠ 0 := by
  unfold mk2 at h
  obtain ⟨z, h1, h⟩ := Res.bind_eq_ok.1 h
  obtain ⟨_, h2, h⟩ := Res.bind_eq_ok.1 h
  refine ⟨(normalize_sound hg hs ⟨hn, hd⟩ h).1, ?_⟩
  have hz : z = false := by simpa using Res.assert_eq_ok.1 h2
  subst hz
  have := Poly.isZero_sound hg hd h1
  by_contra hc
  push Not at hc
  exact absurd (this.2 hc) (by simp)

theorem add_sound (hg : env.toEnv.Base B) (hs : SortOk env.sort) {a b r : Frac} (ha : a.WF) (hb : b.WF)
    (h : add (env.checked B) a b = .ok r) : r.WF ∧ ∀ ρ, (∀ x, 0 < ρ x) →
      Poly.value ρ a.den ≠ 0 → Poly.value ρ b.den ≠ 0 →
      Poly.value ρ r.den ≠ 0 ∧ Frac.value ρ r = Frac.value ρ a + Frac.value ρ b := by
  unfold add at h
  obtain ⟨v, h1, h⟩ := Res.bind_eq_ok.1 h
  cases v with
  | true =>
    rw [if_pos rfl] at h
    obtain ⟨n, h2, h⟩ := Res.bind_eq_ok.1 h
    injection h with h
    subst h
    have d := Poly.addAssign_sound hg hs ha.num hb.num h2
    refine ⟨⟨d.wf, ha.den⟩, fun ρ hρ h3 _ => ⟨h3, ?_⟩⟩
    unfold Frac.value
    simp only
    rw [d.value ρ hρ, Poly.eq_sound ha.den hb.den h1 ρ, add_div]
  | false =>
    rw [if_neg (by simp)] at h
    obtain ⟨x, h2, h⟩ := Res.bind_eq_ok.1 h
    obtain ⟨y, h3, h⟩ := Res.bind_eq_ok.1 h
    obtain ⟨n, h4, h⟩ := Res.bind_eq_ok.1 h
    obtain ⟨d, h5, h⟩ := Res.bind_eq_ok.1 h
    have d1 := Poly.mul_sound hg hs ha.num hb.den h2
    have d2 := Poly.mul_sound hg hs hb.num ha.den h3
    have d3 := Poly.add_sound hg hs d1.wf d2.wf h4
    have d4 := Poly.mulAssign_sound hg hs ha.den hb.den h5
    have s := normalize_den hg hs d3 d4 h
    refine ⟨s.wf, fun ρ hρ h6 h7 => ?_⟩
    obtain ⟨e1, e2, -⟩ := s.frac hρ
    refine ⟨fun hz => ?_, ?_⟩
    · exact (mul_ne_zero h6 h7) (e2.1 hz)
    · rw [e1, d1.value ρ hρ, d2.value ρ hρ]
      unfold Frac.value
      field_simp

theorem negate_sound (hg : env.toEnv.Base B) (hs : SortOk env.sort) {a r : Frac} (ha : a.WF)
    (h : negate (env.checked B) a = .ok r) : r.WF ∧ ∀ ρ, (∀ x, 0 < ρ x) →
      (Poly.value ρ r.den = 0 ↔ Poly.value ρ a.den = 0) ∧ Frac.value ρ r = - Frac.value ρ a := by
  unfold negate at h
  obtain ⟨n, h1, h⟩ := Res.bind_eq_ok.1 h
  obtain ⟨n1, n2, -⟩ := Poly.negate_sound hg ha.num h1
  obtain ⟨s, -⟩ := mk2_sound hg hs n1 ha.den h
  refine ⟨s.wf, fun ρ hρ => ?_⟩
  obtain ⟨e1, e2, -⟩ := s.frac hρ
  exact ⟨e2, by rw [e1, n2, neg_div]; rfl⟩

theorem sub_sound (hg : env.toEnv.Base B) (hs : SortOk env.sort) {a b r : Frac} (ha : a.WF) (hb : b.WF)
    (h : sub (env.checked B) a b = .ok r) : r.WF ∧ ∀ ρ, (∀ x, 0 < ρ x) →
      Poly.value ρ a.den ≠ 0 → Poly.value ρ b.den ≠ 0 →
      Poly.value ρ r.den ≠ 0 ∧ Frac.value ρ r = Frac.value ρ a - Frac.value ρ b := by
  unfold sub at h
  obtain ⟨nb, h1, h⟩ := Res.bind_eq_ok.1 h
  obtain ⟨n1, n2⟩ := negate_sound hg hs hb h1
  obtain ⟨a1, a2⟩ := add_sound hg hs ha n1 h
  refine ⟨a1, fun ρ hρ h3 h4 => ?_⟩
  obtain ⟨m1, m2⟩ := n2 ρ hρ
  obtain ⟨q1, q2⟩ := a2 ρ hρ h3 (fun hz => h4 (m1.1 hz))
  exact ⟨q1, by rw [q2, m2]; ring⟩

theorem subAssign_sound (hg : env.toEnv.Base B) (hs : SortOk env.sort) {a b r : Frac} (ha : a.WF) (hb : b.WF)
    (h : subAssign (env.checked B) a b = .ok r) : r.WF ∧ ∀ ρ, (∀ x, 0 < ρ x) →
      Poly.value ρ a.den ≠ 0 → Poly.value ρ b.den ≠ 0 →
      Poly.value ρ r.den ≠ 0 ∧ Frac.value ρ r = Frac.value ρ a - Frac.value ρ b := by
  unfold subAssign at h
  obtain ⟨nb, h1, h⟩ := Res.bind_eq_ok.1 h
  obtain ⟨s, h2, h⟩ := Res.bind_eq_ok.1 h
  obtain ⟨n1, n2⟩ := negate_sound hg hs hb h1
  obtain ⟨a1, a2⟩ := add_sound hg hs ha n1 h2
  obtain ⟨ss, -⟩ := normalize_sound hg hs a1 h
  refine ⟨ss.wf, fun ρ hρ h3 h4 => ?_⟩
  obtain ⟨m1, m2⟩ := n2 ρ hρ
  obtain ⟨q1, q2⟩ := a2 ρ hρ h3 (fun hz => h4 (m1.1 hz))
  obtain ⟨e1, e2, -⟩ := ss.frac hρ
  refine ⟨fun hz => q1 (e2.1 hz), ?_⟩
  rw [e1]
  change Frac.value ρ s = _
  rw [q2, m2]; ring

theorem mul_sound (hg : env.toEnv.Base B) (hs : SortOk env.sort) {a b r : Frac} (ha : a.WF) (hb : b.WF)
    (h : mul (env.checked B) a b = .ok r) : r.WF ∧ ∀ ρ, (∀ x, 0 < ρ x) →
      (Poly.value ρ r.den = 0 ↔ Poly.value ρ a.den = 0 ∨ Poly.value ρ b.den = 0) ∧
      Frac.value ρ r = Frac.value ρ a * Frac.value ρ b := by
  unfold mul at h
  obtain ⟨n, h4, h⟩ := Res.bind_eq_ok.1 h
  obtain ⟨d, h5, h⟩ := Res.bind_eq_ok.1 h
  have d3 := Poly.mulAssign_sound hg hs ha.num hb.num h4
  have d4 := Poly.mulAssign_sound hg hs ha.den hb.den h5
  have s := normalize_den hg hs d3 d4 h
  refine ⟨s.wf, fun ρ hρ => ?_⟩
  obtain ⟨e1, e2, -⟩ := s.frac hρ
  refine ⟨e2.trans mul_eq_zero, ?_⟩
  rw [e1]
  unfold Frac.value
  rw [div_mul_div_comm]

theorem div_sound (hg : env.toEnv.Base B) (hs : SortOk env.sort) {a b r : Frac} (ha : a.WF) (hb : b.WF)
    (h : div (env.checked B) a b = .ok r) : r.WF ∧ (∃ t ∈ b.num, t.coe.val ≠ 0) ∧ ∀ ρ, (∀ x, 0 < ρ x) →
      (Poly.value ρ r.den = 0 ↔ Poly.value ρ a.den = 0 ∨ Poly.value ρ b.num = 0) ∧
      Frac.value ρ r = Frac.value ρ a / Frac.value ρ b := by
  unfold div at h
  obtain ⟨z, h1, h⟩ := Res.bind_eq_ok.1 h
  obtain ⟨_, h2, h⟩ := Res.bind_eq_ok.1 h
  obtain ⟨n, h4, h⟩ := Res.bind_eq_ok.1 h
  obtain ⟨d, h5, h⟩ := Res.bind_eq_ok.1 h
  have d3 := Poly.mulAssign_sound hg hs ha.num hb.den h4
  have d4 := Poly.mulAssign_sound hg hs ha.den hb.num h5
  have s := normalize_den hg hs d3 d4 h
  refine ⟨s.wf, ?_, fun ρ hρ => ?_⟩
  · have hz : z = false := by simpa using Res.assert_eq_ok.1 h2
    subst hz
    have := Poly.isZero_sound hg hb.num h1
    by_contra hc
    push Not at hc
    exact absurd (this.2 hc) (by simp)
  · obtain ⟨e1, e2, -⟩ := s.frac hρ
    refine ⟨e2.trans mul_eq_zero, ?_⟩
    rw [e1]
    unfold Frac.value
    rw [div_div_div_eq]

theorem inverse_sound (hg : env.toEnv.Base B) (hs : SortOk env.sort) {a r : Frac} (ha : a.WF)
    (h : inverse (env.checked B) a = .ok r) : r.WF ∧ ∀ ρ, (∀ x, 0 < ρ x) →
      (Poly.value ρ r.den = 0 ↔ Poly.value ρ a.num = 0) ∧ Frac.value ρ r = (Frac.value ρ a)⁻¹ := by
  unfold inverse at h
  obtain ⟨s, -⟩ := mk2_sound hg hs ha.den ha.num h
  refine ⟨s.wf, fun ρ hρ => ?_⟩
  obtain ⟨e1, e2, -⟩ := s.frac hρ
  refine ⟨e2, ?_⟩
  rw [e1]
  unfold Frac.value
  rw [inv_div]

theorem tryEval_sound (hg : env.toEnv.Base B) {a : Frac} (ha : a.WF) {r : Num.Real}
    (h : tryEval (env.checked B) a = .ok (some r)) : r.Canon ∧ ∀ ρ, r.val = Frac.value ρ a := by
  unfold tryEval at h
  obtain ⟨n, h1, h⟩ := Res.bind_eq_ok.1 h
  obtain ⟨d, h2, h⟩ := Res.bind_eq_ok.1 h
  split at h
  · rename_i n d
    obtain ⟨x, h3, h⟩ := Res.bind_eq_ok.1 h
    injection h with h
    injection h with h
    subst h
    obtain ⟨a1, a2⟩ := Poly.tryEval_sound hg ha.num h1
    obtain ⟨b1, b2⟩ := Poly.tryEval_sound hg ha.den h2
    obtain ⟨c1, c2, -⟩ := Real.div_sound hg a1.valid b1.valid h3
    exact ⟨c1, fun ρ => by rw [c2, a2 ρ, b2 ρ]; rfl⟩
  · simp at h

theorem eval_sound (hg : env.toEnv.Base B) {a : Frac} (ha : a.WF) {r : Num.Real}
    (h : eval (env.checked B) a = .ok r) : r.Canon ∧ ∀ ρ, r.val = Frac.value ρ a := by
  unfold eval at h
  obtain ⟨n, h1, h⟩ := Res.bind_eq_ok.1 h
  obtain ⟨d, h2, h⟩ := Res.bind_eq_ok.1 h
  obtain ⟨a1, a2⟩ := Poly.eval_sound hg ha.num h1
  obtain ⟨b1, b2⟩ := Poly.eval_sound hg ha.den h2
  obtain ⟨c1, c2, -⟩ := Real.div_sound hg a1.valid b1.valid h
  exact ⟨c1, fun ρ => by rw [c2, a2 ρ, b2 ρ]; rfl⟩

open Nat in
theorem pow_int_sound (hg : env.toEnv.Base B) (hs : SortOk env.sort) {a r : Frac} {q : Rational} {k : Int} (ha : a.WF)
    (hq : q.den ≠ 0) (hl : q.Lowest) (hqk : q.val = k) (h : pow (env.checked B) a q = .ok r) :
    r.WF ∧ ∀ ρ, (∀ x, 0 < ρ x) → Frac.value ρ r = Frac.value ρ a ^ k ∧
      (Poly.value ρ a.den ≠ 0 → (0 ≤ k ∨ Poly.value ρ a.num ≠ 0) → Poly.value ρ r.den ≠ 0) := by
  unfold pow at h
  obtain ⟨o, h1, h⟩ := Res.bind_eq_ok.1 h
  cases o with
  | some x =>
    obtain ⟨y, h2, h⟩ := Res.bind_eq_ok.1 h
    obtain ⟨t1, t2⟩ := tryEval_sound hg ha h1
    obtain ⟨p1, p2⟩ := Real.pow_sound hg t1.valid hq (Or.inr ⟨hl, k, hqk⟩) h2
    have s := ofReal_sound hg hs p1 h
    refine ⟨s.wf, fun ρ hρ => ?_⟩
    obtain ⟨e1, e2, -⟩ := s.frac hρ
    refine ⟨by rw [e1, p2, t2 ρ, hqk]; simp, fun _ _ hz => ?_⟩
    have := e2.1 hz
    norm_num at this
  | none =>
    obtain ⟨n, h2, h⟩ := Res.bind_eq_ok.1 h
    obtain ⟨d, h3, h⟩ := Res.bind_eq_ok.1 h
    by_cases hk0 : 0 ≤ k
    · have d1 := Poly.pow_int_sound hg hs ha.num hq hl hqk h2 (Or.inr hk0)
      have d2 := Poly.pow_int_sound hg hs ha.den hq hl hqk h3 (Or.inr hk0)
      have s := normalize_den hg hs d1 d2 h
      refine ⟨s.wf, fun ρ hρ => ?_⟩
      obtain ⟨e1, e2, -⟩ := s.frac hρ
      refine ⟨by rw [e1, ← div_zpow]; rfl, fun h5 _ hz => ?_⟩
      exact zpow_ne_zero _ h5 (e2.1 hz)
    · have hn : n ≠ [] ∧ d ≠ [] := by
        unfold normalize at h
        obtain ⟨n1, g1, h⟩ := Res.bind_eq_ok.1 h
        obtain ⟨d1, g2, h⟩ := Res.bind_eq_ok.1 h
        obtain ⟨m0, g3, h⟩ := Res.bind_eq_ok.1 h
        obtain ⟨m, g4, h⟩ := Res.bind_eq_ok.1 h
        obtain ⟨n2, g5, h⟩ := Res.bind_eq_ok.1 h
        obtain ⟨d2, g6, h9⟩ := Res.bind_eq_ok.1 h
        clear h
        constructor
        · rintro rfl
          rw [Poly.normalize_nil hg hs g1] at g5
          unfold scaleAll Poly.mapM at g5
          injection g5 with g5
          subst g5
          simp at h9
        · rintro rfl
          rw [Poly.normalize_nil hg hs g2] at g6
          unfold scaleAll Poly.mapM at g6
          injection g6 with g6
          subst g6
          split at h9
          · rename_i he
            cases he
          · cases h9
      have d1 := Poly.pow_int_sound hg hs ha.num hq hl hqk h2 (Or.inl hn.1)
      have d2 := Poly.pow_int_sound hg hs ha.den hq hl hqk h3 (Or.inl hn.2)
      have s := normalize_den hg hs d1 d2 h
      refine ⟨s.wf, fun ρ hρ => ?_⟩
      obtain ⟨e1, e2, -⟩ := s.frac hρ
      refine ⟨by rw [e1, ← div_zpow]; rfl, fun h5 _ hz => ?_⟩
      exact zpow_ne_zero _ h5 (e2.1 hz)

/-- a fractional exponent in lowest terms is applied to the absolute value. -/
theorem pow_frac_sound (hg : env.toEnv.Base B) (hs : SortOk env.sort) {a r : Frac} {q : Rational} (ha : a.WF)
    (hq : q.den ≠ 0) (hl : q.Lowest) (hd : ¬ ∃ k : Int, q.val = k) (h : pow (env.checked B) a q = .ok r) :
    r.WF ∧ ∀ ρ, (∀ x, 0 < ρ x) → Frac.value ρ r = |Frac.value ρ a| ^ ((q.val : ℚ) : ℝ) ∧ Poly.value ρ r.den ≠ 0 := by
  unfold pow at h
  obtain ⟨o, h1, h⟩ := Res.bind_eq_ok.1 h
  cases o with
  | some x =>
    obtain ⟨y, h2, h⟩ := Res.bind_eq_ok.1 h
    obtain ⟨t1, t2⟩ := tryEval_sound hg ha h1
    obtain ⟨p1, -, p2⟩ := Real.pow_sound' hg t1.valid hq h2
    have s := ofReal_sound hg hs p1 h
    refine ⟨s.wf, fun ρ hρ => ?_⟩
    obtain ⟨e1, e2, -⟩ := s.frac hρ
    refine ⟨by rw [e1, ((p2 hl).2 hd).2, t2 ρ]; simp, fun hz => ?_⟩
    have := e2.1 hz
    norm_num at this
  | none =>
    obtain ⟨n, h2, h⟩ := Res.bind_eq_ok.1 h
    obtain ⟨d, h3, h⟩ := Res.bind_eq_ok.1 h
    obtain ⟨d1, -⟩ := Poly.pow_frac_sound hg hs ha.num hq hl hd h2
    obtain ⟨d2, d3⟩ := Poly.pow_frac_sound hg hs ha.den hq hl hd h3
    have s := normalize_den hg hs d1 d2 h
    refine ⟨s.wf, fun ρ hρ => ?_⟩
    obtain ⟨e1, e2, -⟩ := s.frac hρ
    refine ⟨?_, fun hz => ?_⟩
    · rw [e1, ← Real.div_rpow (abs_nonneg _) (abs_nonneg _), ← abs_div]; rfl
    · exact (Real.rpow_pos_of_pos (abs_pos.2 (d3 ρ hρ)) _).ne' (e2.1 hz)

theorem substitute_sound (hg : env.toEnv.Base B) (hs : SortOk env.sort) {e : List (List Char × Num.Real)} {a r : Frac}
    (ha : a.WF) (hn : ∀ t ∈ a.num, t.SubstOk e) (hd : ∀ t ∈ a.den, t.SubstOk e)
    (h : substitute (env.checked B) e a = .ok r) :
    r.WF ∧ (∃ t ∈ r.den, t.coe.val ≠ 0) ∧ ∀ ρ, (∀ x, 0 < ρ x) → Frac.value ρ r = Frac.value (override e ρ) a ∧
      (Poly.value ρ r.den = 0 ↔ Poly.value (override e ρ) a.den = 0) := by
  unfold substitute at h
  obtain ⟨n, h1, h⟩ := Res.bind_eq_ok.1 h
  obtain ⟨d, h2, h⟩ := Res.bind_eq_ok.1 h
  obtain ⟨q, h3, h⟩ := Res.bind_eq_ok.1 h
  obtain ⟨z, h4, h⟩ := Res.bind_eq_ok.1 h
  obtain ⟨_, h5, h⟩ := Res.bind_eq_ok.1 h
  injection h with h
  subst h
  obtain ⟨n1, n2⟩ := Poly.substitute_sound hg ha.num hn h1
  obtain ⟨d1, d2⟩ := Poly.substitute_sound hg ha.den hd h2
  obtain ⟨s, -⟩ := normalize_sound hg hs (f := ⟨n, d⟩) ⟨n1, d1⟩ h3
  refine ⟨s.wf, ?_, fun ρ hρ => ?_⟩
  · have hz : z = false := by simpa using Res.assert_eq_ok.1 h5
    subst hz
    have := Poly.isZero_sound hg s.wf.den h4
    by_contra hc
    push Not at hc
    exact absurd (this.2 hc) (by simp)
  · obtain ⟨e1, e2, -⟩ := s.frac hρ
    simp only at e1 e2
    rw [e1, e2, n2, d2]
    exact ⟨rfl, Iff.rfl⟩

/-- a vanishing divisor raises the documented Error. -/
theorem div_zero (hg : env.toEnv.Base B) {a b : Frac} {v : Bool} (hb : Poly.WF b.num)
    (hz : ∀ t ∈ b.num, t.coe.val = 0) (h : Poly.isZero (env.toEnv.checked B) b.num = .ok v) :
    div (env.checked B) a b = .throw divisionByZero := by
  have hv := (Poly.isZero_sound hg hb h).2 hz
  subst hv
  unfold div
  show (Poly.isZero (env.toEnv.checked B) b.num >>= _) = _
  rw [h]
  rfl

end Frac
end Symxx.Sym

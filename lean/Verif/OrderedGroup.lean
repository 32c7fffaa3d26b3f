import Mathlib.LinearAlgebra.FreeModule.PID
import Mathlib.RingTheory.PrincipalIdealDomain
import Mathlib.Algebra.EuclideanDomain.Int
import Mathlib.Order.CountableDenseLinearOrder
import Mathlib.Algebra.Order.Group.Defs
import Mathlib.Algebra.BigOperators.Fin
import Mathlib.Data.Rat.Defs
import Mathlib.Algebra.Order.Field.Basic
import Mathlib.Algebra.Order.Field.Rat
import Mathlib.Tactic.Linarith
import Mathlib.Tactic.Abel
import Mathlib.Tactic.FieldSimp
/-!
# Finitely many elements of an ordered abelian group look like integers

`exists_int_model`: for every finite subset of a linearly ordered abelian group there is a map to the integers that is additive on
the subgroup generated by it and strictly increasing on it.  The proof eliminates variables (Fourier-Motzkin).
-/
namespace Sherman
variable {G : Type} [AddCommGroup G] [LinearOrder G] [IsOrderedAddMonoid G]

/-- A finite system of strict linear inequalities with integer coefficients that has a solution in an ordered group has one in
the rational numbers. -/
theorem exists_rat_solution {n : Nat} (u : Fin n → G) (P : List (Fin n → ℤ)) (hP : ∀ p ∈ P, 0 < ∑ i, p i • u i) :
    ∃ v : Fin n → ℚ, ∀ p ∈ P, 0 < ∑ i, (p i : ℚ) * v i := by
  induction n with
  | zero => exact ⟨fun _ => 0, fun p hp => by simpa using hP p hp⟩
  | succ n ih =>
    obtain ⟨v, hv⟩ := ih (fun i => u i.succ)
      ((P.filter (fun p => p 0 = 0)).map (fun p i => p i.succ) ++
        ((P.filter (fun p => 0 < p 0)).product (P.filter (fun p => p 0 < 0))).map
          (fun pq i => -pq.2 0 * pq.1 i.succ + pq.1 0 * pq.2 i.succ)) (by
        intro r hr
        rw [List.mem_append] at hr
        rcases hr with hr | hr
        · obtain ⟨p, hp, rfl⟩ := List.mem_map.1 hr
          rw [List.mem_filter] at hp
          have h0 : p 0 = 0 := by simpa using hp.2
          have := hP p hp.1
          rw [Fin.sum_univ_succ, h0, zero_smul, zero_add] at this
          exact this
        · obtain ⟨⟨p, q⟩, hpq, rfl⟩ := List.mem_map.1 hr
          have hpq := List.pair_mem_product.1 hpq
          rw [List.mem_filter, List.mem_filter] at hpq
          obtain ⟨⟨hp, hp0⟩, hq, hq0⟩ := hpq
          have hp0 : 0 < p 0 := by simpa using hp0
          have hq0 : q 0 < 0 := by simpa using hq0
          have e1 := hP p hp
          have e2 := hP q hq
          rw [Fin.sum_univ_succ] at e1 e2
          have e : ∑ i : Fin n, (-q 0 * p i.succ + p 0 * q i.succ) • u i.succ =
              (-q 0) • (p 0 • u 0 + ∑ i : Fin n, p i.succ • u i.succ) +
                p 0 • (q 0 • u 0 + ∑ i : Fin n, q i.succ • u i.succ) := by
            simp only [add_smul, mul_smul, Finset.sum_add_distrib, smul_add, ← Finset.smul_sum]
            rw [smul_smul, smul_smul, neg_mul, mul_comm (q 0) (p 0)]
            simp only [neg_smul]
            abel
          show 0 < ∑ i : Fin n, (-q 0 * p i.succ + p 0 * q i.succ) • u i.succ
          rw [e]
          exact add_pos (zsmul_pos e1 (by omega)) (zsmul_pos e2 hp0))
    let val : (Fin (n + 1) → ℤ) → ℚ := fun p => ∑ i : Fin n, (p i.succ : ℚ) * v i
    obtain ⟨t, ht1, ht2⟩ := Order.exists_between_finsets
      ((P.filter (fun p => 0 < p 0)).map fun p => -val p / p 0).toFinset
      ((P.filter (fun p => p 0 < 0)).map fun p => -val p / p 0).toFinset (by
        intro x hx y hy
        rw [List.mem_toFinset] at hx hy
        obtain ⟨p, hp, rfl⟩ := List.mem_map.1 hx
        obtain ⟨q, hq, rfl⟩ := List.mem_map.1 hy
        have := hv (fun i => -q 0 * p i.succ + p 0 * q i.succ)
          (List.mem_append_right _ (List.mem_map.2 ⟨(p, q), List.pair_mem_product.2 ⟨hp, hq⟩, rfl⟩))
        rw [List.mem_filter] at hp hq
        have hp0 : (0 : ℚ) < (p 0 : ℚ) := by exact_mod_cast (by simpa using hp.2 : 0 < p 0)
        have hq0 : ((q 0 : ℤ) : ℚ) < 0 := by exact_mod_cast (by simpa using hq.2 : q 0 < 0)
        have e : ∑ i : Fin n, ((-q 0 * p i.succ + p 0 * q i.succ : ℤ) : ℚ) * v i = -(q 0 : ℚ) * val p + p 0 * val q := by
          simp only [val, Finset.mul_sum, ← Finset.sum_add_distrib]
          refine Finset.sum_congr rfl fun i _ => ?_
          push_cast
          ring
        rw [e] at this
        rw [div_lt_iff₀ hp0, div_mul_eq_mul_div, lt_div_iff_of_neg hq0]
        linarith)
    refine ⟨Fin.cons t v, fun p hp => ?_⟩
    have es : ∑ i, (p i : ℚ) * (Fin.cons t v : Fin (n + 1) → ℚ) i = p 0 * t + val p := by
      rw [Fin.sum_univ_succ]
      simp [val]
    rw [es]
    rcases lt_trichotomy (p 0) 0 with h | h | h
    · have hq0 : ((p 0 : ℤ) : ℚ) < 0 := by exact_mod_cast h
      have := ht2 (-val p / p 0) (List.mem_toFinset.2 (List.mem_map.2 ⟨p, List.mem_filter.2 ⟨hp, by simpa using h⟩, rfl⟩))
      rw [lt_div_iff_of_neg hq0] at this
      linarith
    · have := hv (fun i => p i.succ)
        (List.mem_append_left _ (List.mem_map.2 ⟨p, List.mem_filter.2 ⟨hp, by simpa using h⟩, rfl⟩))
      rw [h]
      simpa [val] using this
    · have hp0 : (0 : ℚ) < (p 0 : ℚ) := by exact_mod_cast h
      have := ht1 (-val p / p 0) (List.mem_toFinset.2 (List.mem_map.2 ⟨p, List.mem_filter.2 ⟨hp, by simpa using h⟩, rfl⟩))
      rw [div_lt_iff₀ hp0] at this
      linarith

/-- The same with a solution in the integers. -/
theorem exists_int_solution {n : Nat} (u : Fin n → G) (P : List (Fin n → ℤ)) (hP : ∀ p ∈ P, 0 < ∑ i, p i • u i) :
    ∃ v : Fin n → ℤ, ∀ p ∈ P, 0 < ∑ i, p i * v i := by
  obtain ⟨v, hv⟩ := exists_rat_solution u P hP
  let D : ℤ := ∏ i, (v i).den
  have hD : 0 < D := Finset.prod_pos fun i _ => by exact_mod_cast (v i).den_pos
  have hd : ∀ i, ∃ z : ℤ, (z : ℚ) = v i * D := by
    intro i
    obtain ⟨k, hk⟩ := Finset.dvd_prod_of_mem (fun i => ((v i).den : ℤ)) (Finset.mem_univ i)
    refine ⟨(v i).num * k, ?_⟩
    have hk : D = ((v i).den : ℤ) * k := by rw [← hk]
    have e : (D : ℚ) = ((v i).den : ℚ) * k := by rw [hk]; push_cast; rfl
    rw [e, ← mul_assoc, Rat.mul_den_eq_num]
    push_cast
    ring
  choose w hw using hd
  refine ⟨w, fun p hp => ?_⟩
  have h1 := mul_pos (hv p hp) (by exact_mod_cast hD : (0 : ℚ) < D)
  rw [Finset.sum_mul] at h1
  have e : ((∑ i, p i * w i : ℤ) : ℚ) = ∑ i, (p i : ℚ) * v i * D := by
    push_cast
    refine Finset.sum_congr rfl fun i _ => ?_
    rw [hw]
    ring
  rw [← e] at h1
  exact_mod_cast h1

/-- On any finite subset, an ordered abelian group can be mapped to the integers without changing sums or the order. -/
theorem exists_int_model (X : Finset G) :
    ∃ f : G → ℤ, (∀ a ∈ X, ∀ b ∈ X, a < b → f a < f b) ∧ (∀ a ∈ X, ∀ b ∈ X, f (a + b) = f a + f b) ∧
      (∀ a ∈ X, ∀ b ∈ X, f (a - b) = f a - f b) ∧ f 0 = 0 := by
  classical
  let H : Submodule ℤ G := Submodule.span ℤ (X : Set G)
  have hX : ∀ a ∈ X, a ∈ H := fun a ha => Submodule.subset_span ha
  have : Module.Finite ℤ H := Module.Finite.iff_fg.2 ⟨X, rfl⟩
  obtain ⟨n, B⟩ := Module.basisOfFiniteTypeTorsionFree' (R := ℤ) (M := H)
  have hu : ∀ x : H, ∑ i, B.repr x i • ((B i : H) : G) = x := by
    intro x
    conv_rhs => rw [← B.sum_repr x]
    rw [Submodule.coe_sum]
    rfl
  obtain ⟨v, hv⟩ := exists_int_solution (fun i => ((B i : H) : G))
    (((X.toList.product X.toList).filter (fun p => p.1 < p.2)).map
      (fun (p : G × G) (i : Fin n) => if h : p.2 - p.1 ∈ H then B.repr ⟨p.2 - p.1, h⟩ i else 0)) (by
      intro r hr
      obtain ⟨⟨a, b⟩, hab, rfl⟩ := List.mem_map.1 hr
      rw [List.mem_filter] at hab
      have h1 := List.pair_mem_product.1 hab.1
      have hlt : a < b := by simpa using hab.2
      have hm : b - a ∈ H := H.sub_mem (hX b (by simpa using h1.2)) (hX a (by simpa using h1.1))
      simp only [hm, dif_pos]
      rw [hu]
      simpa using hlt)
  let φ : H →ₗ[ℤ] ℤ := ∑ i, v i • B.coord i
  have hφ : ∀ x : H, φ x = ∑ i, B.repr x i * v i := by
    intro x
    simp only [φ, LinearMap.sum_apply, LinearMap.smul_apply, Module.Basis.coord_apply, smul_eq_mul]
    exact Finset.sum_congr rfl fun i _ => mul_comm _ _
  let f : G → ℤ := fun g => if h : g ∈ H then φ ⟨g, h⟩ else 0
  have hf : ∀ x : G, ∀ h : x ∈ H, f x = φ ⟨x, h⟩ := fun x h => by simp only [f, dif_pos h]
  refine ⟨f, ?_, ?_, ?_, ?_⟩
  · intro a ha b hb hab
    have hm : b - a ∈ H := H.sub_mem (hX b hb) (hX a ha)
    have := hv (fun i => if h : b - a ∈ H then B.repr ⟨b - a, h⟩ i else 0)
      (List.mem_map.2 ⟨(a, b), List.mem_filter.2 ⟨List.pair_mem_product.2 ⟨by simpa using ha, by simpa using hb⟩,
        by simpa using hab⟩, rfl⟩)
    simp only [hm, dif_pos] at this
    rw [← hφ] at this
    rw [hf a (hX a ha), hf b (hX b hb)]
    have e : (⟨b - a, hm⟩ : H) = ⟨b, hX b hb⟩ - ⟨a, hX a ha⟩ := rfl
    rw [e, map_sub] at this
    linarith
  · intro a ha b hb
    rw [hf a (hX a ha), hf b (hX b hb), hf (a + b) (H.add_mem (hX a ha) (hX b hb)), ← map_add]
    rfl
  · intro a ha b hb
    rw [hf a (hX a ha), hf b (hX b hb), hf (a - b) (H.sub_mem (hX a ha) (hX b hb)), ← map_sub]
    rfl
  · rw [hf 0 H.zero_mem]
    exact map_zero φ

end Sherman

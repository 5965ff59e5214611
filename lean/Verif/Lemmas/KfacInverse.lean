import Verif.Lemmas.BlockDiag
import Verif.Lemmas.LinAlg
import Verif.Props.KfacProduct

/-!
# Lemmas on the product with the KFAC inverse
-/

namespace Curvlinops

/-! ## Orthonormal systems -/

/-- Product of two matrices that are diagonal in the same orthonormal system. -/
theorem ortho_mul {ι : Type _} [DecidableEq ι] (R : Finset ι) (W : ι → ι → ℝ) (f g : ι → ℝ) (x z : ι)
    (h : ∀ r ∈ R, ∀ r' ∈ R, ∑ y ∈ R, W r y * W r' y = if r = r' then 1 else 0) :
    ∑ y ∈ R, (∑ r ∈ R, W r x * f r * W r y) * (∑ r ∈ R, W r y * g r * W r z) =
      ∑ r ∈ R, W r x * (f r * g r) * W r z := by
  have h1 : ∀ y ∈ R, (∑ r ∈ R, W r x * f r * W r y) * (∑ r ∈ R, W r y * g r * W r z) =
      ∑ r ∈ R, ∑ r' ∈ R, (W r x * f r * g r' * W r' z) * (W r y * W r' y) := by
    intro y _
    rw [Finset.sum_mul_sum]
    exact Finset.sum_congr rfl fun r _ => Finset.sum_congr rfl fun r' _ => by ring
  rw [Finset.sum_congr rfl h1, Finset.sum_comm]
  refine Finset.sum_congr rfl fun r hr => ?_
  rw [Finset.sum_comm]
  simp only [← Finset.mul_sum]
  rw [Finset.sum_eq_single r]
  · rw [h r hr r hr, if_pos rfl]; ring
  · intro r' hr' hne
    rw [h r hr r' hr', if_neg (Ne.symm hne), mul_zero]
  · exact fun hn => absurd hr hn

/-- Entry of a matrix that is diagonal in the Kronecker basis of two eigenbases. -/
noncomputable def kfeEnt (I J : Nat) (eA eB : Eigen) (f : Nat → Nat → ℝ) (i j i' j' : Nat) : ℝ :=
  ∑ p ∈ Finset.range I, ∑ q ∈ Finset.range J, eB.vecs i p * eA.vecs j q * f p q * (eB.vecs i' p * eA.vecs j' q)

section Kfe

variable {I J : Nat} {eA eB : Eigen}

theorem kfeEnt_product (f : Nat → Nat → ℝ) (i j i' j' : Nat) :
    kfeEnt I J eA eB f i j i' j' = ∑ r ∈ Finset.range I ×ˢ Finset.range J,
      (fun (r x : Nat × Nat) => eB.vecs x.1 r.1 * eA.vecs x.2 r.2) r (i, j) * f r.1 r.2 *
        (fun (r x : Nat × Nat) => eB.vecs x.1 r.1 * eA.vecs x.2 r.2) r (i', j') := by
  rw [kfeEnt, Finset.sum_product]

theorem kfeEnt_mul (f g : Nat → Nat → ℝ)
    (hA : ∀ p < J, ∀ q < J, ∑ i ∈ Finset.range J, eA.vecs i p * eA.vecs i q = if p = q then 1 else 0)
    (hB : ∀ p < I, ∀ q < I, ∑ i ∈ Finset.range I, eB.vecs i p * eB.vecs i q = if p = q then 1 else 0)
    (i j i'' j'' : Nat) :
    ∑ i' ∈ Finset.range I, ∑ j' ∈ Finset.range J, kfeEnt I J eA eB f i j i' j' * kfeEnt I J eA eB g i' j' i'' j'' =
      kfeEnt I J eA eB (fun p q => f p q * g p q) i j i'' j'' := by
  simp only [kfeEnt_product]
  rw [← ortho_mul (Finset.range I ×ˢ Finset.range J) (fun (r x : Nat × Nat) => eB.vecs x.1 r.1 * eA.vecs x.2 r.2)
    (fun r => f r.1 r.2) (fun r => g r.1 r.2) (i, j) (i'', j''), Finset.sum_product]
  rintro ⟨p, q⟩ hr ⟨p', q'⟩ hr'
  simp only [Finset.mem_product, Finset.mem_range] at hr hr'
  rw [Finset.sum_product]
  simp only
  have : ∀ i ∈ Finset.range I, ∑ j ∈ Finset.range J, eB.vecs i p * eA.vecs j q * (eB.vecs i p' * eA.vecs j q') =
      (eB.vecs i p * eB.vecs i p') * ∑ j ∈ Finset.range J, eA.vecs j q * eA.vecs j q' := by
    intro i _
    rw [Finset.mul_sum]
    exact Finset.sum_congr rfl fun j _ => by ring
  rw [Finset.sum_congr rfl this, ← Finset.sum_mul, hA q hr.2 q' hr'.2, hB p hr.1 p' hr'.1]
  simp only [Prod.mk.injEq]
  split_ifs <;> simp_all

theorem kfeEnt_one (f : Nat → Nat → ℝ) (hf : ∀ p < I, ∀ q < J, f p q = 1)
    (hA : ∀ i < J, ∀ j < J, ∑ p ∈ Finset.range J, eA.vecs i p * eA.vecs j p = if i = j then 1 else 0)
    (hB : ∀ i < I, ∀ j < I, ∑ p ∈ Finset.range I, eB.vecs i p * eB.vecs j p = if i = j then 1 else 0)
    (i j i' j' : Nat) (hi : i < I) (hj : j < J) (hi' : i' < I) (hj' : j' < J) :
    kfeEnt I J eA eB f i j i' j' = if i = i' ∧ j = j' then 1 else 0 := by
  unfold kfeEnt
  have : ∀ p ∈ Finset.range I, ∑ q ∈ Finset.range J, eB.vecs i p * eA.vecs j q * f p q * (eB.vecs i' p * eA.vecs j' q) =
      (eB.vecs i p * eB.vecs i' p) * ∑ q ∈ Finset.range J, eA.vecs j q * eA.vecs j' q := by
    intro p hp
    rw [Finset.mul_sum]
    refine Finset.sum_congr rfl fun q hq => ?_
    rw [hf p (Finset.mem_range.mp hp) q (Finset.mem_range.mp hq)]
    ring
  rw [Finset.sum_congr rfl this, ← Finset.sum_mul, hA j hj j' hj', hB i hi i' hi']
  split_ifs <;> simp_all

/-- `B i i' * A j' j + δ` on the diagonal, in the eigenbasis. -/
theorem kfeEnt_kron (A B : Nat → Nat → ℝ) (δ : ℝ)
    (hA : ∀ i < J, ∀ j < J, ∑ p ∈ Finset.range J, eA.vecs i p * eA.vals p * eA.vecs j p = A i j)
    (hB : ∀ i < I, ∀ j < I, ∑ p ∈ Finset.range I, eB.vecs i p * eB.vals p * eB.vecs j p = B i j)
    (hA' : ∀ i < J, ∀ j < J, ∑ p ∈ Finset.range J, eA.vecs i p * eA.vecs j p = if i = j then 1 else 0)
    (hB' : ∀ i < I, ∀ j < I, ∑ p ∈ Finset.range I, eB.vecs i p * eB.vecs j p = if i = j then 1 else 0)
    (i j i' j' : Nat) (hi : i < I) (hj : j < J) (hi' : i' < I) (hj' : j' < J) :
    kfeEnt I J eA eB (fun p q => eB.vals p * eA.vals q + δ) i j i' j' =
      B i i' * A j' j + δ * if i = i' ∧ j = j' then 1 else 0 := by
  have h1 : kfeEnt I J eA eB (fun p q => eB.vals p * eA.vals q + δ) i j i' j' =
      kfeEnt I J eA eB (fun p q => eB.vals p * eA.vals q) i j i' j' +
        δ * kfeEnt I J eA eB (fun _ _ => 1) i j i' j' := by
    unfold kfeEnt
    rw [Finset.mul_sum, ← Finset.sum_add_distrib]
    refine Finset.sum_congr rfl fun p _ => ?_
    rw [Finset.mul_sum, ← Finset.sum_add_distrib]
    exact Finset.sum_congr rfl fun q _ => by ring
  rw [h1, kfeEnt_one _ (fun _ _ _ _ => rfl) hA' hB' i j i' j' hi hj hi' hj']
  congr 1
  rw [← hB i hi i' hi', ← hA j' hj' j hj, Finset.sum_mul_sum, kfeEnt]
  exact Finset.sum_congr rfl fun p _ => Finset.sum_congr rfl fun q _ => by ring

end Kfe

/-! ## Products -/

/-- Left product with a tensor of three dimensions. -/
theorem mulLeft3_spec (B : Factor ℝ) (t : Tensor ℝ) (I J K : Nat) (hs : t.shape = [I, J, K]) (hB : B.dim = I) :
    ∃ u, mulLeft B t = .ok u ∧ u.shape = [I, J, K] ∧ u.WF ∧
      ∀ i < I, ∀ j < J, ∀ k < K, u.data.getD ((i * J + j) * K + k) 0 =
        ∑ i' ∈ Finset.range I, B.mat i i' * t.data.getD ((i' * J + j) * K + k) 0 := by
  obtain ⟨u, hu, hus, huwf, hue⟩ := mulLeft_spec B t I [J, K] hs hB
  refine ⟨u, hu, hus.trans hs, huwf, fun i hi j hj k hk => ?_⟩
  have hr : j * K + k < [J, K].prod := by simpa using flat_index_lt hj hk
  have := hue i hi (j * K + k) hr
  have e : ∀ i', i' * [J, K].prod + (j * K + k) = (i' * J + j) * K + k := fun i' => by simp; ring
  simp only [e] at this
  exact this

theorem scaleJoint_spec (eA eB : Eigen) (δ : ℝ) (t : Tensor ℝ) (I J K : Nat) (hs : t.shape = [I, J, K])
    (hA : eA.dim = J) (hB : eB.dim = I) :
    ∃ u, scaleJoint eA eB δ t = .ok u ∧ u.shape = [I, J, K] ∧ u.WF ∧
      ∀ i < I, ∀ j < J, ∀ k < K, u.data.getD ((i * J + j) * K + k) 0 =
        t.data.getD ((i * J + j) * K + k) 0 * (eB.vals i * eA.vals j + δ)⁻¹ := by
  subst hA hB
  simp only [scaleJoint, hs, and_self, if_true]
  refine ⟨_, rfl, rfl, by simp [Tensor.WF], fun i hi j hj k hk => ?_⟩
  rw [getD_map_range _ _ _ (idx3_lt hi hj hk)]
  simp only [idx3_div _ _ _ _ _ hj hk, idx2_div _ _ _ hk, idx2_mod _ _ _ hj]

theorem sum_reorder3 (I J P : Nat) (F : Nat → Nat → Nat → ℝ) :
    ∑ p ∈ Finset.range P, ∑ j ∈ Finset.range J, ∑ i ∈ Finset.range I, F p j i =
      ∑ i ∈ Finset.range I, ∑ j ∈ Finset.range J, ∑ p ∈ Finset.range P, F p j i := by
  calc _ = ∑ p ∈ Finset.range P, ∑ i ∈ Finset.range I, ∑ j ∈ Finset.range J, F p j i :=
        Finset.sum_congr rfl fun p _ => Finset.sum_comm
    _ = ∑ i ∈ Finset.range I, ∑ p ∈ Finset.range P, ∑ j ∈ Finset.range J, F p j i := Finset.sum_comm
    _ = _ := Finset.sum_congr rfl fun i _ => Finset.sum_comm

/-- Joint treatment with exact damping, before splitting. -/
theorem exactJoint_core (δ : ℝ) (eA eB : Eigen) (t : Tensor ℝ) (I J K : Nat) (hs : t.shape = [I, J, K]) (hA : eA.dim = J)
    (hB : eB.dim = I) :
    ∃ t₁ t₂ t₃ t₄ u, mulLeft eB.Qt t = .ok t₁ ∧ mulRight eA.Q t₁ = .ok t₂ ∧ scaleJoint eA eB δ t₂ = .ok t₃ ∧
      mulLeft eB.Q t₃ = .ok t₄ ∧ mulRight eA.Qt t₄ = .ok u ∧ u.shape = [I, J, K] ∧ u.WF ∧
      ∀ i < I, ∀ j < J, ∀ k < K, u.data.getD ((i * J + j) * K + k) 0 =
        ∑ i' ∈ Finset.range I, ∑ j' ∈ Finset.range J,
          kfeEnt I J eA eB (fun p q => (eB.vals p * eA.vals q + δ)⁻¹) i j i' j' *
            t.data.getD ((i' * J + j') * K + k) 0 := by
  obtain ⟨t₁, h1, s1, -, e1⟩ := mulLeft3_spec eB.Qt t I J K hs hB
  obtain ⟨t₂, h2, s2, -, e2⟩ := mulRight_spec eA.Q t₁ I J K s1 hA
  obtain ⟨t₃, h3, s3, -, e3⟩ := scaleJoint_spec eA eB δ t₂ I J K s2 hA hB
  obtain ⟨t₄, h4, s4, -, e4⟩ := mulLeft3_spec eB.Q t₃ I J K s3 hB
  obtain ⟨u, h5, s5, w5, e5⟩ := mulRight_spec eA.Qt t₄ I J K s4 hA
  refine ⟨t₁, t₂, t₃, t₄, u, h1, h2, h3, h4, h5, s5, w5, fun i hi j hj k hk => ?_⟩
  rw [e5 i hi j hj k hk]
  have : ∀ q ∈ Finset.range J, t₄.data.getD ((i * J + q) * K + k) 0 * eA.Qt.mat q j =
      ∑ p ∈ Finset.range I, ∑ j' ∈ Finset.range J, ∑ i' ∈ Finset.range I,
        eB.vecs i p * eA.vecs j q * (eB.vals p * eA.vals q + δ)⁻¹ * (eB.vecs i' p * eA.vecs j' q) *
          t.data.getD ((i' * J + j') * K + k) 0 := by
    intro q hq
    have hq := Finset.mem_range.mp hq
    rw [e4 i hi q hq k hk, Finset.sum_mul]
    refine Finset.sum_congr rfl fun p hp => ?_
    have hp := Finset.mem_range.mp hp
    rw [e3 p hp q hq k hk, e2 p hp q hq k hk, Finset.sum_mul, Finset.mul_sum, Finset.sum_mul]
    refine Finset.sum_congr rfl fun j' hj' => ?_
    have hj' := Finset.mem_range.mp hj'
    rw [e1 p hp j' hj' k hk, Finset.sum_mul, Finset.sum_mul, Finset.mul_sum, Finset.sum_mul]
    refine Finset.sum_congr rfl fun i' _ => ?_
    simp only [Eigen.Q, Eigen.Qt]
    ring
  rw [Finset.sum_congr rfl this]
  have hr : ∀ i' j', kfeEnt I J eA eB (fun p q => (eB.vals p * eA.vals q + δ)⁻¹) i j i' j' *
      t.data.getD ((i' * J + j') * K + k) 0 = ∑ q ∈ Finset.range J, ∑ p ∈ Finset.range I,
        eB.vecs i p * eA.vecs j q * (eB.vals p * eA.vals q + δ)⁻¹ * (eB.vecs i' p * eA.vecs j' q) *
          t.data.getD ((i' * J + j') * K + k) 0 := by
    intro i' j'
    rw [kfeEnt, Finset.sum_comm, Finset.sum_mul]
    exact Finset.sum_congr rfl fun q _ => by rw [Finset.sum_mul]
  simp only [hr]
  calc _ = ∑ q ∈ Finset.range J, ∑ i' ∈ Finset.range I, ∑ j' ∈ Finset.range J, ∑ p ∈ Finset.range I,
        eB.vecs i p * eA.vecs j q * (eB.vals p * eA.vals q + δ)⁻¹ * (eB.vecs i' p * eA.vecs j' q) *
          t.data.getD ((i' * J + j') * K + k) 0 := Finset.sum_congr rfl fun q _ => sum_reorder3 _ _ _ _
    _ = ∑ i' ∈ Finset.range I, ∑ q ∈ Finset.range J, ∑ j' ∈ Finset.range J, ∑ p ∈ Finset.range I,
        eB.vecs i p * eA.vecs j q * (eB.vals p * eA.vals q + δ)⁻¹ * (eB.vecs i' p * eA.vecs j' q) *
          t.data.getD ((i' * J + j') * K + k) 0 := Finset.sum_comm
    _ = _ := Finset.sum_congr rfl fun i' _ => Finset.sum_comm

/-- A weight with exact damping. -/
theorem exactWeight_spec (δ : ℝ) (eA eB : Eigen) (t : Tensor ℝ) (I : Nat) (mid : List Nat) (K : Nat)
    (hs : t.shape = I :: (mid ++ [K])) (hA : eA.dim = mid.prod) (hB : eB.dim = I) :
    ∃ u, exactWeight δ eA eB t = .ok u ∧ u.shape = t.shape ∧ u.WF ∧
      ∀ i < I, ∀ j < mid.prod, ∀ k < K, u.data.getD ((i * mid.prod + j) * K + k) 0 =
        ∑ i' ∈ Finset.range I, ∑ j' ∈ Finset.range mid.prod,
          kfeEnt I mid.prod eA eB (fun p q => (eB.vals p * eA.vals q + δ)⁻¹) i j i' j' *
            t.data.getD ((i' * mid.prod + j') * K + k) 0 := by
  set J := mid.prod with hJ
  obtain ⟨t₁, h1, s1, -, e1⟩ := mulRight_spec eA.Q ⟨[I, J, K], t.data⟩ I J K rfl hA
  obtain ⟨t₂, h2, s2, -, e2⟩ := mulLeft3_spec eB.Qt t₁ I J K s1 hB
  obtain ⟨t₃, h3, s3, -, e3⟩ := scaleJoint_spec eA eB δ t₂ I J K s2 hA hB
  obtain ⟨t₄, h4, s4, -, e4⟩ := mulRight_spec eA.Qt t₃ I J K s3 hA
  obtain ⟨u, h5, s5, w5, e5⟩ := mulLeft3_spec eB.Q t₄ I J K s4 hB
  have hprod : t.shape.prod = u.shape.prod := by rw [s5, hs, hJ]; simp
  refine ⟨⟨t.shape, u.data⟩, ?_, rfl, ?_, fun i hi j hj k hk => ?_⟩
  · unfold exactWeight
    rw [flattenMid_spec t I mid K hs, ← hJ]
    simp only [bind, Except.bind, h1, h2, h3, h4, h5, Tensor.reshape, hprod, if_true]
  · rw [Tensor.WF, hprod]; exact w5
  · rw [e5 i hi j hj k hk]
    have : ∀ p ∈ Finset.range I, eB.Q.mat i p * t₄.data.getD ((p * J + j) * K + k) 0 =
        ∑ q ∈ Finset.range J, ∑ i' ∈ Finset.range I, ∑ j' ∈ Finset.range J,
          eB.vecs i p * eA.vecs j q * (eB.vals p * eA.vals q + δ)⁻¹ * (eB.vecs i' p * eA.vecs j' q) *
            t.data.getD ((i' * J + j') * K + k) 0 := by
      intro p hp
      have hp := Finset.mem_range.mp hp
      rw [e4 p hp j hj k hk, Finset.mul_sum]
      refine Finset.sum_congr rfl fun q hq => ?_
      have hq := Finset.mem_range.mp hq
      rw [e3 p hp q hq k hk, e2 p hp q hq k hk, Finset.sum_mul, Finset.sum_mul, Finset.mul_sum]
      refine Finset.sum_congr rfl fun i' hi' => ?_
      have hi' := Finset.mem_range.mp hi'
      rw [e1 i' hi' q hq k hk, Finset.mul_sum, Finset.sum_mul, Finset.sum_mul, Finset.mul_sum]
      refine Finset.sum_congr rfl fun j' _ => ?_
      simp only [Eigen.Q, Eigen.Qt]
      ring
    rw [Finset.sum_congr rfl this]
    have hr : ∀ i' j', kfeEnt I J eA eB (fun p q => (eB.vals p * eA.vals q + δ)⁻¹) i j i' j' *
        t.data.getD ((i' * J + j') * K + k) 0 = ∑ p ∈ Finset.range I, ∑ q ∈ Finset.range J,
          eB.vecs i p * eA.vecs j q * (eB.vals p * eA.vals q + δ)⁻¹ * (eB.vecs i' p * eA.vecs j' q) *
            t.data.getD ((i' * J + j') * K + k) 0 := by
      intro i' j'
      rw [kfeEnt, Finset.sum_mul]
      exact Finset.sum_congr rfl fun q _ => by rw [Finset.sum_mul]
    simp only [hr]
    calc _ = ∑ p ∈ Finset.range I, ∑ i' ∈ Finset.range I, ∑ q ∈ Finset.range J, ∑ j' ∈ Finset.range J,
          eB.vecs i p * eA.vecs j q * (eB.vals p * eA.vals q + δ)⁻¹ * (eB.vecs i' p * eA.vecs j' q) *
            t.data.getD ((i' * J + j') * K + k) 0 := Finset.sum_congr rfl fun p _ => Finset.sum_comm
      _ = ∑ i' ∈ Finset.range I, ∑ p ∈ Finset.range I, ∑ q ∈ Finset.range J, ∑ j' ∈ Finset.range J,
          eB.vecs i p * eA.vecs j q * (eB.vals p * eA.vals q + δ)⁻¹ * (eB.vecs i' p * eA.vecs j' q) *
            t.data.getD ((i' * J + j') * K + k) 0 := Finset.sum_comm
      _ = ∑ i' ∈ Finset.range I, ∑ p ∈ Finset.range I, ∑ j' ∈ Finset.range J, ∑ q ∈ Finset.range J,
          eB.vecs i p * eA.vecs j q * (eB.vals p * eA.vals q + δ)⁻¹ * (eB.vecs i' p * eA.vecs j' q) *
            t.data.getD ((i' * J + j') * K + k) 0 :=
          Finset.sum_congr rfl fun i' _ => Finset.sum_congr rfl fun p _ => Finset.sum_comm
      _ = _ := Finset.sum_congr rfl fun i' _ => Finset.sum_comm

/-- The eigendecomposition of the `1 × 1` identity, for biases. -/
def unitEigen : Eigen := ⟨1, fun _ _ => 1, fun _ => 1⟩

/-- A bias with exact damping. -/
theorem exactBias_spec (δ : ℝ) (eB : Eigen) (t : Tensor ℝ) (I K : Nat) (hs : t.shape = [I, K]) (hB : eB.dim = I) :
    ∃ u, exactBias δ eB t = .ok u ∧ u.shape = t.shape ∧ u.WF ∧
      ∀ i < I, ∀ k < K, u.data.getD (i * K + k) 0 =
        ∑ i' ∈ Finset.range I, ∑ j' ∈ Finset.range 1,
          kfeEnt I 1 unitEigen eB (fun p q => (eB.vals p * unitEigen.vals q + δ)⁻¹) i 0 i' j' *
            t.data.getD (i' * K + k) 0 := by
  obtain ⟨t₁, h1, s1, -, e1⟩ := mulLeft_spec eB.Qt t I [K] hs hB
  rw [hs] at s1
  obtain ⟨t₂, h2, s2, e2⟩ : ∃ u, scaleRows eB δ t₁ = .ok u ∧ u.shape = [I, K] ∧ ∀ i < I, ∀ k < K,
      u.data.getD (i * K + k) 0 = t₁.data.getD (i * K + k) 0 * (eB.vals i + δ)⁻¹ := by
    simp only [scaleRows, s1, hB, if_true]
    refine ⟨_, rfl, rfl, fun i hi k hk => ?_⟩
    rw [getD_map_range _ _ _ (by simpa using flat_index_lt hi hk)]
    simp only [List.prod_singleton, idx2_div _ _ _ hk]
  obtain ⟨u, h3, s3, w3, e3⟩ := mulLeft_spec eB.Q t₂ I [K] s2 hB
  refine ⟨u, ?_, by rw [s3, s2, hs], w3, fun i hi k hk => ?_⟩
  · simp only [exactBias, bind, Except.bind, h1, h2, h3]
  · simp only [List.prod_singleton] at e1 e3
    rw [e3 i hi k hk]
    have : ∀ p ∈ Finset.range I, eB.Q.mat i p * t₂.data.getD (p * K + k) 0 = ∑ i' ∈ Finset.range I,
        eB.vecs i p * (eB.vals p + δ)⁻¹ * eB.vecs i' p * t.data.getD (i' * K + k) 0 := by
      intro p hp
      have hp := Finset.mem_range.mp hp
      rw [e2 p hp k hk, e1 p hp k hk, Finset.sum_mul, Finset.mul_sum]
      refine Finset.sum_congr rfl fun i' _ => ?_
      simp only [Eigen.Q, Eigen.Qt]
      ring
    rw [Finset.sum_congr rfl this, Finset.sum_comm]
    refine Finset.sum_congr rfl fun i' _ => ?_
    simp only [Finset.sum_range_one, kfeEnt, unitEigen, mul_one]
    rw [Finset.sum_mul]

/-- Joining weight and bias. -/
theorem joinBias_spec (w b : Tensor ℝ) (I J K : Nat) (hw : w.shape = [I, J, K]) (hb : b.shape = [I, K]) :
    ∃ m, joinBias w b = .ok m ∧ m.shape = [I, J + 1, K] ∧
      ∀ i < I, ∀ j < J + 1, ∀ k < K, m.data.getD ((i * (J + 1) + j) * K + k) 0 =
        if j < J then w.data.getD ((i * J + j) * K + k) 0 else b.data.getD (i * K + k) 0 := by
  simp only [joinBias, hw, hb, if_true]
  refine ⟨_, rfl, rfl, fun i hi j hj k hk => ?_⟩
  rw [getD_map_range _ _ _ (idx3_lt hi hj hk)]
  simp only [idx3_div _ _ _ _ _ hj hk, idx2_div _ _ _ hk, idx2_mod _ _ _ hk, idx2_mod _ _ _ hj]
  split_ifs
  · congr 1; ring
  · rfl

/-- Splitting into weight and bias. -/
theorem splitBias_spec (v : Tensor ℝ) (I J K : Nat) (hv : v.shape = [I, J + 1, K]) :
    ∃ w b, splitBias J v = .ok (w, b) ∧ w.shape = [I, J, K] ∧ w.WF ∧ b.shape = [I, K] ∧ b.WF ∧
      ∀ i < I, ∀ k < K, (∀ j < J, w.data.getD ((i * J + j) * K + k) 0 = v.data.getD ((i * (J + 1) + j) * K + k) 0) ∧
        b.data.getD (i * K + k) 0 = v.data.getD ((i * (J + 1) + J) * K + k) 0 := by
  simp only [splitBias, hv, if_true]
  refine ⟨_, _, rfl, rfl, by simp [Tensor.WF], rfl, by simp [Tensor.WF], fun i hi k hk => ⟨fun j hj => ?_, ?_⟩⟩
  · rw [getD_map_range _ _ _ (idx3_lt hi hj hk)]
    simp only [idx3_div _ _ _ _ _ hj hk, idx2_div _ _ _ hk, idx2_mod _ _ _ hk, idx2_mod _ _ _ hj]
    congr 1
    ring
  · rw [getD_map_range _ _ _ (flat_index_lt hi hk)]
    simp only [idx2_div _ _ _ hk, idx2_mod _ _ _ hk]
    congr 1
    ring

/-- Joint treatment with exact damping. -/
theorem exactJoint_spec (δ : ℝ) (eA eB : Eigen) (w b : Tensor ℝ) (I : Nat) (mid : List Nat) (K : Nat)
    (hw : w.shape = I :: (mid ++ [K])) (hb : b.shape = [I, K]) (hA : eA.dim = mid.prod + 1) (hB : eB.dim = I) :
    ∃ w' b', exactJoint δ eA eB w b = .ok (w', b') ∧ w'.shape = w.shape ∧ w'.WF ∧ b'.shape = b.shape ∧ b'.WF ∧
      ∀ M : Nat → Nat → Nat → ℝ,
        (∀ i < I, ∀ k < K, (∀ j < mid.prod, M i j k = w.data.getD ((i * mid.prod + j) * K + k) 0) ∧
          M i mid.prod k = b.data.getD (i * K + k) 0) →
        ∀ i < I, ∀ k < K,
          (∀ j < mid.prod, w'.data.getD ((i * mid.prod + j) * K + k) 0 =
            ∑ i' ∈ Finset.range I, ∑ j' ∈ Finset.range (mid.prod + 1),
              kfeEnt I (mid.prod + 1) eA eB (fun p q => (eB.vals p * eA.vals q + δ)⁻¹) i j i' j' * M i' j' k) ∧
          b'.data.getD (i * K + k) 0 =
            ∑ i' ∈ Finset.range I, ∑ j' ∈ Finset.range (mid.prod + 1),
              kfeEnt I (mid.prod + 1) eA eB (fun p q => (eB.vals p * eA.vals q + δ)⁻¹) i mid.prod i' j' * M i' j' k := by
  set J := mid.prod with hJ
  obtain ⟨m, hm, hms, hme⟩ := joinBias_spec ⟨[I, J, K], w.data⟩ b I J K rfl hb
  obtain ⟨t₁, t₂, t₃, t₄, u, h1, h2, h3, h4, h5, s5, -, e5⟩ := exactJoint_core δ eA eB m I (J + 1) K hms hA hB
  obtain ⟨w', b', hsp, hws, hww, hbs, hbw, hsv⟩ := splitBias_spec u I J K s5
  have hprod : w.shape.prod = w'.shape.prod := by rw [hws, hw, hJ]; simp
  refine ⟨⟨w.shape, w'.data⟩, b', ?_, rfl, ?_, by rw [hbs, hb], hbw, fun M hM i hi k hk => ?_⟩
  · unfold exactJoint
    rw [flattenMid_spec w I mid K hw, ← hJ]
    simp only [bind, Except.bind, hm, h1, h2, h3, h4, h5, Tensor.reshape, hprod, List.getD_cons_succ, List.getD_cons_zero,
      hsp, if_true]
  · rw [Tensor.WF, hprod]; exact hww
  · have key : ∀ j < J + 1, u.data.getD ((i * (J + 1) + j) * K + k) 0 =
        ∑ i' ∈ Finset.range I, ∑ j' ∈ Finset.range (J + 1),
          kfeEnt I (J + 1) eA eB (fun p q => (eB.vals p * eA.vals q + δ)⁻¹) i j i' j' * M i' j' k := by
      intro j hj
      rw [e5 i hi j hj k hk]
      refine Finset.sum_congr rfl fun i' hi' => Finset.sum_congr rfl fun j' hj' => ?_
      have hi' := Finset.mem_range.mp hi'
      have hj' := Finset.mem_range.mp hj'
      rw [hme i' hi' j' hj' k hk]
      congr 1
      split_ifs with hlt
      · exact ((hM i' hi' k hk).1 j' hlt).symm
      · have : j' = J := by omega
        subst this
        exact ((hM i' hi' k hk).2).symm
    refine ⟨fun j hj => ?_, ?_⟩
    · rw [← key j (by omega)]
      exact (hsv i hi k hk).1 j hj
    · rw [← key J (by omega)]
      exact (hsv i hi k hk).2

end Curvlinops
